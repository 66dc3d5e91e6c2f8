import Verif.Js.StreamLemmas
import Verif.Props.Grammar
import Verif.Props.Handshake

/-!
# Properties C90 and C91: browsers and Rust peers understand each other

The wire format is the one of `Verif.Props.Grammar` (C71), which mentions neither implementation.
-/

set_option autoImplicit false

namespace Verif.Props.JsWire

open Verif Verif.Coding Verif.Js Verif.Props.Grammar

open Verif.Message (ControlType)
open Verif.Props.Message (Kind DistinctKinds)
open Verif.Session (RecvStream StreamEnd)

/-! ## Specification -/

/-- The kinds of messages of the browser implementation. -/
inductive JKind where
  | announce | interest | group | info | client | server | subscribe | subscribeOk

/-- The kind of the Rust implementation with the same role. -/
abbrev JKind.rust : JKind → Kind
  | .announce => .announce
  | .interest => .announceRequest
  | .group => .group
  | .info => .sessionInfo
  | .client => .clientSetup
  | .server => .serverSetup
  | .subscribe => .subscribe
  | .subscribeOk => .subscribeOk

/-- The messages of a kind in the browser. -/
abbrev JKind.Ty : JKind → Type
  | .announce => Js.Announce
  | .interest => AnnounceInterest
  | .group => Js.Group
  | .info => Nat
  | .client => SessionClient
  | .server => SessionServer
  | .subscribe => Js.Subscribe
  | .subscribeOk => Nat

/-- The browser's encoder. -/
abbrev JKind.enc : (k : JKind) → k.Ty → Wr
  | .announce => Js.Announce.encode
  | .interest => AnnounceInterest.encode
  | .group => Js.Group.encode
  | .info => Js.encodeSessionInfo
  | .client => SessionClient.encode
  | .server => SessionServer.encode
  | .subscribe => Js.Subscribe.encode
  | .subscribeOk => encodePriority

/-- The browser's decoder. -/
abbrev JKind.dec (L : Lossy) : (k : JKind) → Rd k.Ty
  | .announce => Js.Announce.decode L
  | .interest => AnnounceInterest.decode L
  | .group => Js.Group.decode
  | .info => Js.decodeSessionInfo
  | .client => SessionClient.decode
  | .server => SessionServer.decode
  | .subscribe => Js.Subscribe.decode L
  | .subscribeOk => decodePriority

/-- The Rust message that means the same as a message of the browser.  Text is converted to
Unicode (unpaired surrogates, which Unicode does not have, are replaced). -/
abbrev JKind.meaning : (k : JKind) → k.Ty → k.rust.Ty
  | .announce => fun m => if m.active then .active (toRust m.suffix) else .ended (toRust m.suffix)
  | .interest => fun m => ⟨toRust m.prefix⟩
  | .group => fun m => ⟨m.subscribe, m.sequence⟩
  | .info => fun n => ⟨if n = 0 then none else some n⟩
  | .client => fun m => ⟨m.versions, m.extensions⟩
  | .server => fun m => ⟨m.version, m.extensions⟩
  | .subscribe => fun m =>
      ⟨m.id, toRust m.broadcast, toRust m.track, UInt8.ofNat m.priority⟩
  | .subscribeOk => fun p => ⟨UInt8.ofNat p⟩

/-- The browser's message that means the same as a Rust message. -/
abbrev JKind.image : (k : JKind) → k.rust.Ty → k.Ty
  | .announce => fun m =>
      match m with
      | .active s => ⟨ofRust s, true⟩
      | .ended s => ⟨ofRust s, false⟩
  | .interest => fun m => ⟨ofRust m.prefix⟩
  | .group => fun m => ⟨m.subscribe, m.sequence⟩
  | .info => fun m => m.bitrate.getD 0
  | .client => fun m => ⟨m.versions, m.extensions⟩
  | .server => fun m => ⟨m.version, m.extensions⟩
  | .subscribe => fun m => ⟨m.id, ofRust m.broadcast, ofRust m.track, m.priority.toNat⟩
  | .subscribeOk => fun m => m.priority.toNat

/-- An integer that a JavaScript number holds exactly. -/
def Safe (n : Nat) : Prop := n ≤ 2 ^ 53 - 1

/-- All lengths and numbers that the browser writes as numbers can be written. -/
abbrev JKind.Fits : (k : JKind) → k.Ty → Prop
  | .announce => fun m => Safe (textEncode m.suffix).length
  | .interest => fun m => Safe (textEncode m.prefix).length
  | .group => fun m => Safe m.sequence
  | .info => fun n => Safe n
  | .client => fun m => Safe m.versions.length ∧ (∀ v ∈ m.versions, Safe v) ∧
      Safe m.extensions.length ∧ ∀ e ∈ m.extensions, Safe e.2.length
  | .server => fun m => Safe m.version ∧
      Safe m.extensions.length ∧ ∀ e ∈ m.extensions, Safe e.2.length
  | .subscribe => fun m => Safe (textEncode m.broadcast).length ∧
      Safe (textEncode m.track).length ∧ Safe m.priority
  | .subscribeOk => fun p => Safe p

/-- What else is needed for a Rust peer to understand a message: numbers the browser holds in
big integers are below 2^62, the extension map is a map, and **the priority is below 64**. -/
abbrev JKind.Clear : (k : JKind) → k.Ty → Prop
  | .announce => fun _ => True
  | .interest => fun _ => True
  | .group => fun m => m.subscribe < 2 ^ 62
  | .info => fun _ => True
  | .client => fun m => (∀ e ∈ m.extensions, e.1 < 2 ^ 62) ∧ DistinctKinds m.extensions
  | .server => fun m => (∀ e ∈ m.extensions, e.1 < 2 ^ 62) ∧ DistinctKinds m.extensions
  | .subscribe => fun m => m.id < 2 ^ 62 ∧ m.priority < 64
  | .subscribeOk => fun p => p < 64

/-- Text that does not start with U+FEFF. -/
def NoMark (s : String) : Prop := s.toList.head? ≠ some (Char.ofNat 0xFEFF)

/-- What is needed for a browser to understand a message of a Rust peer: lengths and numbers are
safe integers, **text does not start with U+FEFF, and the priority is below 64**. -/
abbrev JKind.Readable : (k : JKind) → k.rust.Ty → Prop
  | .announce => fun m => NoMark m.suffix ∧ Safe (strBytes m.suffix).length
  | .interest => fun m => NoMark m.prefix ∧ Safe (strBytes m.prefix).length
  | .group => fun m => Safe m.sequence
  | .info => fun m => ∀ b, m.bitrate = some b → Safe b
  | .client => fun m => Safe m.versions.length ∧ (∀ v ∈ m.versions, Safe v) ∧
      Safe m.extensions.length ∧ ∀ e ∈ m.extensions, Safe e.2.length
  | .server => fun m => Safe m.version ∧
      Safe m.extensions.length ∧ ∀ e ∈ m.extensions, Safe e.2.length
  | .subscribe => fun m => NoMark m.broadcast ∧ Safe (strBytes m.broadcast).length ∧
      NoMark m.track ∧ Safe (strBytes m.track).length ∧ m.priority < 64
  | .subscribeOk => fun m => m.priority < 64

/-- The bytes of a stream that a browser's reader has not consumed, and how the stream ends. -/
def Holds (r : Js.Reader) (bytes : Bytes) (ending : StreamEnd) : Prop :=
  r.buffer ++ r.stream.chunks.flatten = bytes ∧ r.stream.ending = ending

/-- The method returned `a` and left `rest` of the stream. -/
def Returns {α : Type} (x : Res α × Js.Reader) (a : α) (rest : Bytes) (ending : StreamEnd) : Prop :=
  x.1 = .ok a ∧ Holds x.2 rest ending

/-! ## Helpers: reading -/

theorem u62_varint {u rest : Bytes} {n : Nat} (h : Varint u n) : P.u62 (u ++ rest) = .ok n rest := by
  have hd : decodeU64 (u ++ rest) = .ok (n, rest) := (acc_u64 _ _ _).2 ⟨u, rfl, h⟩
  rw [P.u62]
  rw [decodeU64] at hd
  rw [hd]

theorem u53_varint {u rest : Bytes} {n : Nat} (h : Varint u n) (hs : Safe n) :
    P.u53 (u ++ rest) = .ok n rest := by
  rw [P.u53, P.bind_ok (u62_varint h), if_neg (by unfold MAX_U53; unfold Safe at hs; omega)]
  rfl

theorem u53_large {u rest : Bytes} {n : Nat} (h : Varint u n) (hs : ¬ Safe n) :
    P.u53 (u ++ rest) = .thrown .tooLarge := by
  rw [P.u53, P.bind_ok (u62_varint h), if_pos (by unfold MAX_U53; unfold Safe at hs; omega)]
  rfl

theorem take_append (a b : Bytes) : P.take a.length (a ++ b) = .ok a b := by
  rw [P.take, if_neg (by simp), List.take_left' rfl, List.drop_left' rfl]

theorem blob_parse {u rest b : Bytes} (h : Blob u b) (hs : Safe b.length) :
    P.bind P.u53 (fun n => P.take n) (u ++ rest) = .ok b rest := by
  obtain ⟨len, rfl, hl⟩ := h
  rw [List.append_assoc, P.bind_ok (u53_varint hl hs), take_append]

theorem string_eq (L : Lossy) : P.string L =
    P.bind (P.bind P.u53 fun n => P.take n) fun b => P.pure (textDecode L b) := by
  funext bs
  unfold P.string P.bind
  cases P.u53 bs <;> rfl

theorem text_parse (L : Lossy) {u rest : Bytes} {s : String} (h : Text u s) (hm : NoMark s)
    (hs : Safe (strBytes s).length) : P.string L (u ++ rest) = .ok (ofRust s) rest := by
  rw [string_eq, P.bind_ok (blob_parse h hs), P.pure, utf8_eq, textDecode_strBytes L s hm]

theorem entries_parse (m : Extensions) (u rest : Bytes) (pre : Extensions)
    (h : Items Param u m) (hd : DistinctKinds (pre ++ m)) (hs : ∀ e ∈ m, Safe e.2.length) :
    P.entries m.length pre (u ++ rest) = .ok (pre ++ m) rest := by
  induction m generalizing u pre with
  | nil =>
    cases h
    simp [P.entries, P.pure]
  | cons e es ih =>
    cases h with
    | @cons b1 b2 _ _ h1 h2 =>
      obtain ⟨c1, c2, rfl, hk, hb⟩ := h1
      obtain ⟨len, rfl, hl⟩ := hb
      have hsafe := hs e (by simp)
      rw [List.length_cons, P.entries, List.append_assoc, List.append_assoc, List.append_assoc,
        P.bind_ok (u62_varint hk), P.bind_ok (u53_varint hl hsafe), P.bind_ok (take_append _ _)]
      have hnew : ¬ pre.any (fun x => x.1 == e.1) = true := by
        intro hany
        rw [List.any_eq_true] at hany
        obtain ⟨x, hx, hxe⟩ := hany
        have hxe : x.1 = e.1 := by simpa using hxe
        unfold DistinctKinds at hd
        rw [List.map_append, List.map_cons, List.nodup_append] at hd
        exact hd.2.2 x.1 (List.mem_map_of_mem hx) e.1 (by simp) hxe
      rw [if_neg hnew, ih b2 (pre ++ [e]) h2 (by simpa using hd) fun x hx => hs x (by simp [hx])]
      simp

theorem extensions_parse {m : Extensions} {u rest : Bytes} (h : Counted Param u m)
    (hd : DistinctKinds m) (hn : Safe m.length) (hs : ∀ e ∈ m, Safe e.2.length) :
    P.extensions (u ++ rest) = .ok m rest := by
  obtain ⟨len, items, rfl, hl, hi⟩ := h
  rw [P.extensions, List.append_assoc, P.bind_ok (u53_varint hl hn),
    entries_parse m items rest [] hi (by simpa using hd) hs]
  rfl

theorem versions_parse (vs : List Nat) (u rest : Bytes) (pre : List Nat) (h : Items Varint u vs)
    (hs : ∀ v ∈ vs, Safe v) : P.versions vs.length pre (u ++ rest) = .ok (pre ++ vs) rest := by
  induction vs generalizing u pre with
  | nil =>
    cases h
    simp [P.versions, P.pure]
  | cons v vs ih =>
    cases h with
    | @cons b1 b2 _ _ h1 h2 =>
      rw [List.length_cons, P.versions, List.append_assoc,
        P.bind_ok (u53_varint h1 (hs v (by simp))),
        ih b2 (pre ++ [v]) h2 fun x hx => hs x (by simp [hx])]
      simp

/-- The parser of a kind. -/
def parser (L : Lossy) : (k : JKind) → P k.Ty
  | .announce => P.announce L
  | .interest => P.interest L
  | .group => P.group
  | .info => P.u53
  | .client => P.client
  | .server => P.server
  | .subscribe => P.subscribe L
  | .subscribeOk => P.u53

theorem imp_kind (L : Lossy) (k : JKind) : Implements (k.dec L) (parser L k) := by
  cases k
  · exact imp_announce L
  · exact imp_interest L
  · exact imp_group
  · exact imp_u53
  · exact imp_client
  · exact imp_server
  · exact imp_subscribe L
  · exact imp_u53

theorem varint_small (n : Nat) (h : n < 64) : Varint [UInt8.ofNat n] n := by
  refine ⟨UInt8.ofNat n, [], rfl, ?_, ?_⟩
  · rw [UInt8.toNat_ofNat', Nat.mod_eq_of_lt (by omega), Nat.div_eq_of_lt h]
    rfl
  · show n = Verif.Props.Coding.bigEndian [UInt8.ofNat n] % 2 ^ 6
    simp only [Verif.Props.Coding.bigEndian, List.length_nil, Nat.pow_zero, Nat.mul_one, Nat.add_zero]
    rw [UInt8.toNat_ofNat', Nat.mod_eq_of_lt (by omega : n < 2 ^ 8), Nat.mod_eq_of_lt (by omega)]

theorem parse_kind (L : Lossy) (k : JKind) (m : k.rust.Ty) (bs rest : Bytes)
    (hw : Wire k.rust bs m) (hr : k.Readable m) :
    parser L k (bs ++ rest) = .ok (k.image m) rest := by
  cases k with
  | announce =>
    obtain ⟨b, ht, hm⟩ := hw
    cases m with
    | active s =>
      dsimp only at hm
      subst hm
      show P.announce L ([UInt8.ofNat 1] ++ b ++ rest) = _
      rw [P.announce, List.append_assoc,
        P.bind_ok (u53_varint (varint_small 1 (by omega)) (by unfold Safe; omega)),
        P.bind_ok (text_parse L ht hr.1 hr.2)]
      rfl
    | ended s =>
      dsimp only at hm
      subst hm
      show P.announce L ([UInt8.ofNat 0] ++ b ++ rest) = _
      rw [P.announce, List.append_assoc,
        P.bind_ok (u53_varint (varint_small 0 (by omega)) (by unfold Safe; omega)),
        P.bind_ok (text_parse L ht hr.1 hr.2)]
      rfl
  | interest =>
    show P.interest L (bs ++ rest) = _
    rw [P.interest, P.bind_ok (text_parse L hw hr.1 hr.2)]
    rfl
  | group =>
    obtain ⟨b1, b2, rfl, h1, h2⟩ := hw
    show P.group (b1 ++ b2 ++ rest) = _
    rw [P.group, List.append_assoc, P.bind_ok (u62_varint h1), P.bind_ok (u53_varint h2 hr)]
    rfl
  | info =>
    obtain ⟨b⟩ := m
    show P.u53 (bs ++ rest) = _
    cases b with
    | none => exact u53_varint hw (by show (0 : Nat) ≤ 2 ^ 53 - 1; omega)
    | some n => exact u53_varint hw.2 (hr n rfl)
  | client =>
    obtain ⟨b1, b2, rfl, h1, h2, h3⟩ := hw
    obtain ⟨len, items, rfl, hl, hi⟩ := h1
    show P.client (len ++ items ++ b2 ++ rest) = _
    rw [P.client, List.append_assoc, List.append_assoc, P.bind_ok (u53_varint hl hr.1),
      P.bind_ok (versions_parse _ _ _ [] hi hr.2.1),
      P.bind_ok (extensions_parse h2 h3 hr.2.2.1 hr.2.2.2)]
    rfl
  | server =>
    obtain ⟨b1, b2, rfl, h1, h2, h3⟩ := hw
    show P.server (b1 ++ b2 ++ rest) = _
    rw [P.server, List.append_assoc, P.bind_ok (u53_varint h1 hr.1),
      P.bind_ok (extensions_parse h2 h3 hr.2.1 hr.2.2)]
    rfl
  | subscribe =>
    obtain ⟨b1, b2, b3, rfl, h1, h2, h3⟩ := hw
    obtain ⟨r1, r2, r3, r4, r5⟩ := hr
    have r5 : m.priority.toNat < 64 := r5
    show P.subscribe L (b1 ++ b2 ++ b3 ++ [m.priority] ++ rest) = _
    have hp : Varint [m.priority] m.priority.toNat := by
      have := varint_small m.priority.toNat r5
      simpa using this
    rw [P.subscribe, List.append_assoc, List.append_assoc, List.append_assoc,
      P.bind_ok (u62_varint h1), P.bind_ok (text_parse L h2 r1 r2),
      P.bind_ok (text_parse L h3 r3 r4),
      P.bind_ok (u53_varint hp (by unfold Safe; omega))]
    rfl
  | subscribeOk =>
    obtain ⟨p⟩ := m
    have hr : p.toNat < 64 := hr
    have hw : bs = [p] := hw
    subst hw
    have hp : Varint [p] p.toNat := by
      have := varint_small p.toNat hr
      simpa using this
    exact u53_varint hp (by show p.toNat ≤ 2 ^ 53 - 1; omega)

theorem returns_of {α : Type} {d : Rd α} {p : P α} (hi : Implements d p) {r : Js.Reader}
    {bytes rest : Bytes} {ending : StreamEnd} {a : α} (h : Holds r bytes ending)
    (hp : p bytes = .ok a rest) : Returns (d r) a rest ending := by
  obtain ⟨hb, he⟩ := h
  obtain ⟨r', h1, h2, h3⟩ := (hi r).1 a rest (by rw [Reader.all, hb]; exact hp)
  rw [h1]
  exact ⟨rfl, h2, by rw [h3, he]⟩

/-! ## C90: from Rust to the browser -/

/-- **C90, from Rust to the browser (partial).**  Every message in the wire format of a Rust peer
that satisfies `Readable` is read by the browser as the message that means the same, from any
stream whose unread bytes start with it, however they are cut into pieces; and exactly the rest of
the stream is left.  (The full property has no condition on the text and on the priority; see
`c90_mark_lost` and `c90_priority_starves`.) -/
theorem c90_rust_to_js_partial (L : Lossy) (k : JKind) (m : k.rust.Ty) (bs rest : Bytes)
    (hw : Wire k.rust bs m) (hr : k.Readable m) (r : Js.Reader) (ending : StreamEnd)
    (h : Holds r (bs ++ rest) ending) : Returns (k.dec L r) (k.image m) rest ending :=
  returns_of (imp_kind L k) h (parse_kind L k m bs rest hw hr)

/-! ## Helpers: writing -/

theorem varint53 (v : Nat) (h : Safe v) :
    (writeU53 v).thrown = none ∧ Varint (writeU53 v).bytes v := by
  obtain ⟨h1, h2⟩ := writeU53_ok v (by unfold MAX_U53; unfold Safe at h; omega)
  refine ⟨h1, ?_⟩
  have := rt_u64 v _ [] h2
  obtain ⟨u, hu, hv⟩ := (acc_u64 _ _ _).1 this
  rw [List.append_nil, List.append_nil] at hu
  rwa [hu]

theorem varint62 (v : Nat) (h : v < 2 ^ 62) : Varint (writeU62 v).bytes v := by
  have := writeU62_decodes v h []
  obtain ⟨u, hu, hv⟩ := (acc_u64 _ _ _).1 this
  rw [List.append_nil, List.append_nil] at hu
  rwa [hu]

theorem blob_write (b : Bytes) (h : Safe b.length) :
    (writeU53 b.length ⨟ write b).thrown = none ∧ Blob (writeU53 b.length ⨟ write b).bytes b := by
  obtain ⟨h1, h2⟩ := varint53 b.length h
  refine ⟨seq_none.2 ⟨h1, rfl⟩, ?_⟩
  rw [seq_bytes h1]
  exact ⟨_, rfl, h2⟩

theorem text_write (s : JsString) (h : Safe (textEncode s).length) :
    (writeString s).thrown = none ∧ Text (writeString s).bytes (toRust s) :=
  blob_write (textEncode s) h

theorem entries_write (m : Extensions) (hk : ∀ e ∈ m, e.1 < 2 ^ 62)
    (hs : ∀ e ∈ m, Safe e.2.length) :
    (encodeEntries m).thrown = none ∧ Items Param (encodeEntries m).bytes m := by
  induction m with
  | nil => exact ⟨rfl, .nil⟩
  | cons e es ih =>
    obtain ⟨i1, i2⟩ := ih (fun x hx => hk x (by simp [hx])) fun x hx => hs x (by simp [hx])
    obtain ⟨b1, b2⟩ := blob_write e.2 (hs e (by simp))
    have hn := writeU62_none e.1
    have h1 : (writeU62 e.1 ⨟ writeU53 e.2.length ⨟ write e.2).thrown = none := seq_none.2 ⟨hn, b1⟩
    rw [encodeEntries]
    refine ⟨seq_none.2 ⟨h1, i1⟩, ?_⟩
    rw [seq_bytes h1]
    refine .cons ?_ i2
    rw [seq_bytes hn]
    exact ⟨_, _, rfl, varint62 e.1 (hk e (by simp)), b2⟩

theorem extensions_write (m : Extensions) (hk : ∀ e ∈ m, e.1 < 2 ^ 62) (hn : Safe m.length)
    (hs : ∀ e ∈ m, Safe e.2.length) :
    (Js.encodeExtensions m).thrown = none ∧ Counted Param (Js.encodeExtensions m).bytes m := by
  obtain ⟨h1, h2⟩ := varint53 m.length hn
  obtain ⟨i1, i2⟩ := entries_write m hk hs
  rw [Js.encodeExtensions]
  refine ⟨seq_none.2 ⟨h1, i1⟩, ?_⟩
  rw [seq_bytes h1]
  exact ⟨_, _, rfl, h2, i2⟩

theorem versions_write (vs : List Nat) (hs : ∀ v ∈ vs, Safe v) :
    (Js.encodeVersions vs).thrown = none ∧ Items Varint (Js.encodeVersions vs).bytes vs := by
  induction vs with
  | nil => exact ⟨rfl, .nil⟩
  | cons v vs ih =>
    obtain ⟨h1, h2⟩ := varint53 v (hs v (by simp))
    obtain ⟨i1, i2⟩ := ih fun x hx => hs x (by simp [hx])
    rw [Js.encodeVersions]
    refine ⟨seq_none.2 ⟨h1, i1⟩, ?_⟩
    rw [seq_bytes h1]
    exact .cons h2 i2

theorem writeU53_small (p : Nat) (h : p < 64) : writeU53 p = ⟨[UInt8.ofNat p], none⟩ := by
  unfold writeU53
  rw [if_neg (by unfold MAX_U53; omega)]
  unfold setVint53
  rw [if_pos (by unfold MAX_U6; omega)]
  rfl

theorem conforms (k : JKind) (m : k.Ty) (hf : k.Fits m) (hc : k.Clear m) :
    (k.enc m).thrown = none ∧ Wire k.rust (k.enc m).bytes (k.meaning m) := by
  cases k with
  | announce =>
    obtain ⟨t1, t2⟩ := text_write m.suffix hf
    obtain ⟨s, a⟩ := m
    cases a with
    | true =>
      have e : Js.Announce.encode ⟨s, true⟩ = writeU53 1 ⨟ writeString s := rfl
      show (Js.Announce.encode ⟨s, true⟩).thrown = none ∧ _
      refine ⟨by rw [e]; exact seq_none.2 ⟨by rw [writeU53_small 1 (by omega)], t1⟩, ?_⟩
      refine ⟨(writeString s).bytes, t2, ?_⟩
      show (Js.Announce.encode ⟨s, true⟩).bytes = 1 :: _
      rw [e, seq_bytes (by rw [writeU53_small 1 (by omega)]), writeU53_small 1 (by omega)]
      rfl
    | false =>
      have e : Js.Announce.encode ⟨s, false⟩ = writeU53 0 ⨟ writeString s := rfl
      show (Js.Announce.encode ⟨s, false⟩).thrown = none ∧ _
      refine ⟨by rw [e]; exact seq_none.2 ⟨by rw [writeU53_small 0 (by omega)], t1⟩, ?_⟩
      refine ⟨(writeString s).bytes, t2, ?_⟩
      show (Js.Announce.encode ⟨s, false⟩).bytes = 0 :: _
      rw [e, seq_bytes (by rw [writeU53_small 0 (by omega)]), writeU53_small 0 (by omega)]
      rfl
  | interest => exact text_write m.prefix hf
  | group =>
    obtain ⟨a1, a2⟩ := varint53 m.sequence hf
    refine ⟨seq_none.2 ⟨writeU62_none _, a1⟩, ?_⟩
    show Wire .group (writeU62 m.subscribe ⨟ writeU53 m.sequence).bytes _
    rw [seq_bytes (writeU62_none _)]
    exact ⟨_, _, rfl, varint62 _ hc, a2⟩
  | info =>
    obtain ⟨a1, a2⟩ := varint53 m hf
    refine ⟨a1, ?_⟩
    by_cases h0 : m = 0
    · subst h0
      exact a2
    · show Wire .sessionInfo (writeU53 m).bytes ⟨if m = 0 then none else some m⟩
      rw [if_neg h0]
      exact ⟨h0, a2⟩
  | client =>
    obtain ⟨f1, f2, f3, f4⟩ := hf
    obtain ⟨a1, a2⟩ := varint53 m.versions.length f1
    obtain ⟨v1, v2⟩ := versions_write m.versions f2
    obtain ⟨e1, e2⟩ := extensions_write m.extensions hc.1 f3 f4
    refine ⟨seq_none.2 ⟨a1, seq_none.2 ⟨v1, e1⟩⟩, ?_⟩
    show Wire .clientSetup (writeU53 m.versions.length ⨟ Js.encodeVersions m.versions ⨟
      Js.encodeExtensions m.extensions).bytes _
    rw [seq_bytes a1, seq_bytes v1, ← List.append_assoc]
    exact ⟨_, _, rfl, ⟨_, _, rfl, a2, v2⟩, e2, hc.2⟩
  | server =>
    obtain ⟨f1, f3, f4⟩ := hf
    obtain ⟨a1, a2⟩ := varint53 m.version f1
    obtain ⟨e1, e2⟩ := extensions_write m.extensions hc.1 f3 f4
    refine ⟨seq_none.2 ⟨a1, e1⟩, ?_⟩
    show Wire .serverSetup (writeU53 m.version ⨟ Js.encodeExtensions m.extensions).bytes _
    rw [seq_bytes a1]
    exact ⟨_, _, rfl, a2, e2, hc.2⟩
  | subscribe =>
    obtain ⟨f1, f2, f3⟩ := hf
    obtain ⟨b1, b2⟩ := text_write m.broadcast f1
    obtain ⟨t1, t2⟩ := text_write m.track f2
    have hp := writeU53_small m.priority hc.2
    have p1 : (encodePriority m.priority).thrown = none := by rw [encodePriority, hp]
    refine ⟨seq_none.2 ⟨writeU62_none _, seq_none.2 ⟨b1, seq_none.2 ⟨t1, p1⟩⟩⟩, ?_⟩
    show Wire .subscribe (writeU62 m.id ⨟ writeString m.broadcast ⨟ writeString m.track ⨟
      encodePriority m.priority).bytes _
    rw [seq_bytes (writeU62_none _), seq_bytes b1, seq_bytes t1, encodePriority, hp]
    exact ⟨_, _, _, by simp, varint62 _ hc.1, b2, t2⟩
  | subscribeOk =>
    have hp := writeU53_small m hc
    show (encodePriority m).thrown = none ∧ Wire .subscribeOk (encodePriority m).bytes _
    rw [encodePriority, hp]
    exact ⟨rfl, rfl⟩

/-! ## C90: from the browser to Rust -/

/-- **C90, from the browser to Rust (partial).**  Every message of the browser that satisfies
`Fits` and `Clear` is written without an exception and decoded by a Rust peer as the message that
means the same, whatever follows it.  (The full property has no condition on the priority; see
`c90_priority_cancels`.) -/
theorem c90_js_to_rust_partial (k : JKind) (m : k.Ty) (hf : k.Fits m) (hc : k.Clear m)
    (rest : Bytes) :
    (k.enc m).thrown = none ∧ k.rust.dec ((k.enc m).bytes ++ rest) = .ok (k.meaning m, rest) := by
  obtain ⟨h1, h2⟩ := conforms k m hf hc
  exact ⟨h1, (c71_decoders_accept _ _ _ _).2 ⟨_, rfl, h2⟩⟩

/-! ### Exceptions -/

theorem u53_throws (v : Nat) : ((writeU53 v).thrown = none ↔ Safe v) ∧
    ∀ e, (writeU53 v).thrown = some e → e = .tooLarge := by
  by_cases h : Safe v
  · have := (varint53 v h).1
    refine ⟨Iff.intro (fun _ => h) (fun _ => this), fun e he => ?_⟩
    rw [this] at he
    cases he
  · have := writeU53_thrown v (by unfold MAX_U53; unfold Safe at h; omega)
    rw [this]
    exact ⟨Iff.intro (fun h' => nomatch h') (fun h' => absurd h' h),
      fun e he => (Option.some.inj he).symm⟩

/-- A writer that succeeds exactly if `c`, and throws nothing but `tooLarge`. -/
def Throws (w : Wr) (c : Prop) : Prop :=
  (w.thrown = none ↔ c) ∧ ∀ e, w.thrown = some e → e = .tooLarge

theorem throws_seq {a b : Wr} {c d : Prop} (ha : Throws a c) (hb : Throws b d) :
    Throws (a ⨟ b) (c ∧ d) := by
  refine ⟨by rw [seq_none, ha.1, hb.1], fun e he => ?_⟩
  cases h : a.thrown with
  | some e' =>
    rw [seq_thrown_left h] at he
    cases he
    exact ha.2 _ h
  | none =>
    rw [seq_thrown_right h] at he
    exact hb.2 _ he

theorem throws_never {w : Wr} (h : w.thrown = none) : Throws w True := by
  refine ⟨by simp [h], fun e he => ?_⟩
  rw [h] at he
  cases he

theorem throws_congr {w : Wr} {c d : Prop} (h : Throws w c) (hcd : c ↔ d) : Throws w d :=
  ⟨h.1.trans hcd, h.2⟩

theorem throws_string (s : JsString) : Throws (writeString s) (Safe (textEncode s).length) :=
  throws_congr (throws_seq (u53_throws _) (throws_never rfl)) (by simp)

theorem throws_entries (m : Extensions) :
    Throws (encodeEntries m) (∀ e ∈ m, Safe e.2.length) := by
  induction m with
  | nil => exact throws_congr (throws_never rfl) (by simp)
  | cons e es ih =>
    refine throws_congr (throws_seq (throws_seq (throws_never (writeU62_none e.1))
      (throws_seq (u53_throws _) (throws_never rfl))) ih) (by simp)

theorem throws_versions (vs : List Nat) : Throws (Js.encodeVersions vs) (∀ v ∈ vs, Safe v) := by
  induction vs with
  | nil => exact throws_congr (throws_never rfl) (by simp)
  | cons v vs ih => exact throws_congr (throws_seq (u53_throws v) ih) (by simp)

theorem throws_extensions (m : Extensions) : Throws (Js.encodeExtensions m)
    (Safe m.length ∧ ∀ e ∈ m, Safe e.2.length) := throws_seq (u53_throws _) (throws_entries m)

/-- The browser's encoders succeed exactly on the messages whose numbers and lengths are safe
integers; the only exception is the one for numbers that are too large. -/
theorem c90_encoder_throws (k : JKind) (m : k.Ty) :
    ((k.enc m).thrown = none ↔ k.Fits m) ∧ ∀ e, (k.enc m).thrown = some e → e = .tooLarge := by
  cases k with
  | announce =>
    obtain ⟨s, a⟩ := m
    refine throws_congr (throws_seq (u53_throws _) (throws_string s)) ?_
    cases a <;> simp [JKind.Fits, Safe]
  | interest => exact throws_string m.prefix
  | group =>
    exact throws_congr (throws_seq (throws_never (writeU62_none _)) (u53_throws m.sequence))
      (by simp [JKind.Fits])
  | info => exact u53_throws m
  | client =>
    exact throws_congr (throws_seq (u53_throws _) (throws_seq (throws_versions _)
      (throws_extensions _))) Iff.rfl
  | server => exact throws_seq (u53_throws _) (throws_extensions _)
  | subscribe =>
    exact throws_congr (throws_seq (throws_never (writeU62_none _)) (throws_seq (throws_string _)
      (throws_seq (throws_string _) (u53_throws _)))) (by simp [JKind.Fits])
  | subscribeOk => exact u53_throws m

/-! ### Frames and streams -/

/-- Frames, from the browser to Rust: a Rust peer reads the size, and what follows is the
payload. -/
theorem c90_frame_to_rust (payload rest : Bytes) (h : Safe payload.length) :
    (encodeFrame payload).thrown = none ∧
    Kind.frame.dec ((encodeFrame payload).bytes ++ rest) = .ok (⟨payload.length⟩, payload ++ rest) := by
  obtain ⟨h1, h2⟩ := varint53 payload.length h
  refine ⟨seq_none.2 ⟨h1, rfl⟩, ?_⟩
  rw [encodeFrame, seq_bytes h1, List.append_assoc]
  exact (c71_decoders_accept .frame _ _ _).2 ⟨_, rfl, h2⟩

/-- Frames, from Rust to the browser: the browser reads exactly the payload. -/
theorem c90_frame_to_js (payload size rest : Bytes) (h : Safe payload.length)
    (hw : Wire .frame size ⟨payload.length⟩) (r : Js.Reader) (ending : StreamEnd)
    (hr : Holds r (size ++ payload ++ rest) ending) :
    Returns (decodeFrame r) payload rest ending := by
  refine returns_of imp_frame hr ?_
  rw [P.frame, List.append_assoc, P.bind_ok (u53_varint hw h), take_append]

/-- The three openings of a control stream: the type of the stream, the kind of its first message
and the browser's view of it. -/
inductive Opening : (k : JKind) → ControlType → (k.Ty → StreamBi) → Prop
  | session : Opening .client .session .session
  | announce : Opening .interest .announce .announce
  | subscribe : Opening .subscribe .subscribe .subscribe

/-- A control stream opened by the browser: a Rust peer reads its type and then its message. -/
theorem c90_open_control_partial (k : JKind) (t : ControlType) (f : k.Ty → StreamBi)
    (ho : Opening k t f) (m : k.Ty) (hf : k.Fits m) (hc : k.Clear m) (rest : Bytes) :
    (openBi (f m)).thrown = none ∧ ∃ mid,
      Kind.controlType.dec ((openBi (f m)).bytes ++ rest) = .ok (t, mid) ∧
      k.rust.dec mid = .ok (k.meaning m, rest) := by
  obtain ⟨h1, h2⟩ := c90_js_to_rust_partial k m hf hc rest
  have key : ∀ n : Nat, n < 3 → openBi (f m) = writeU8 n ⨟ k.enc m →
      Wire .controlType [UInt8.ofNat n] t → (openBi (f m)).thrown = none ∧ ∃ mid,
      Kind.controlType.dec ((openBi (f m)).bytes ++ rest) = .ok (t, mid) ∧
      k.rust.dec mid = .ok (k.meaning m, rest) := by
    intro n hn he hw
    rw [he]
    refine ⟨seq_none.2 ⟨rfl, h1⟩, _, ?_, h2⟩
    refine (c71_decoders_accept .controlType _ _ _).2 ⟨[UInt8.ofNat n], ?_, hw⟩
    rw [seq_bytes rfl, List.append_assoc]
    rfl
  cases ho with
  | session => exact key 0 (by omega) rfl (varint_small 0 (by omega))
  | announce => exact key 1 (by omega) rfl (varint_small 1 (by omega))
  | subscribe => exact key 2 (by omega) rfl (varint_small 2 (by omega))

/-- The byte a Rust peer writes for the type of a control stream. -/
def controlByte : ControlType → UInt8
  | .session => 0
  | .announce => 1
  | .subscribe => 2

theorem controlByte_of (t : ControlType) (b1 : Bytes)
    (hw : wire (Kind.controlType.enc t) = .ok b1) : b1 = [controlByte t] := by
  cases t <;> (cases hw; rfl)

theorem u8_cons (b : UInt8) (bs : Bytes) : P.u8 (b :: bs) = .ok b.toNat bs := by
  have h : P.take 1 (b :: bs) = .ok [b] bs := take_append [b] bs
  rw [P.u8, P.bind_ok h]
  rfl

/-- A control stream opened by a Rust peer: the browser reads its type and its message. -/
theorem c90_accept_control_partial (L : Lossy) (k : JKind) (t : ControlType) (f : k.Ty → StreamBi)
    (ho : Opening k t f) (m : k.rust.Ty) (b1 b2 rest : Bytes)
    (h1 : wire (Kind.controlType.enc t) = .ok b1) (h2 : Wire k.rust b2 m) (hm : k.Readable m)
    (r : Js.Reader) (ending : StreamEnd) (hr : Holds r (b1 ++ b2 ++ rest) ending) :
    Returns (acceptBi L r) (f (k.image m)) rest ending := by
  have hp := parse_kind L k m b2 rest h2 hm
  have hb := controlByte_of t b1 h1
  refine returns_of (imp_bi L) hr ?_
  subst hb
  cases ho with
  | session =>
    show P.bi L ((0 : UInt8) :: (b2 ++ rest)) = _
    rw [P.bi, P.bind_ok (u8_cons _ _)]
    exact P.bind_ok hp
  | announce =>
    show P.bi L ((1 : UInt8) :: (b2 ++ rest)) = _
    rw [P.bi, P.bind_ok (u8_cons _ _)]
    exact P.bind_ok hp
  | subscribe =>
    show P.bi L ((2 : UInt8) :: (b2 ++ rest)) = _
    rw [P.bi, P.bind_ok (u8_cons _ _)]
    exact P.bind_ok hp

/-- A group's stream opened by the browser, as a Rust peer reads it. -/
theorem c90_open_group (m : Js.Group) (hf : Safe m.sequence) (hc : m.subscribe < 2 ^ 62)
    (rest : Bytes) : (openUni m).thrown = none ∧ ∃ mid,
      Kind.dataType.dec ((openUni m).bytes ++ rest) = .ok (.group, mid) ∧
      Kind.group.dec mid = .ok (⟨m.subscribe, m.sequence⟩, rest) := by
  obtain ⟨h1, h2⟩ := c90_js_to_rust_partial .group m hf hc rest
  refine ⟨seq_none.2 ⟨rfl, h1⟩, _, ?_, h2⟩
  refine (c71_decoders_accept .dataType _ _ _).2 ⟨[UInt8.ofNat 0], ?_, varint_small 0 (by omega)⟩
  rw [openUni, seq_bytes rfl, List.append_assoc]
  rfl

/-- A group's stream opened by a Rust peer, as the browser reads it. -/
theorem c90_accept_group (m : Message.Group) (b1 b2 rest : Bytes)
    (h1 : wire (Kind.dataType.enc .group) = .ok b1) (h2 : Wire .group b2 m) (hm : Safe m.sequence)
    (r : Js.Reader) (ending : StreamEnd) (hr : Holds r (b1 ++ b2 ++ rest) ending) :
    Returns (acceptUni r) ⟨m.subscribe, m.sequence⟩ rest ending := by
  have hp := parse_kind (fun _ => []) .group m b2 rest h2 hm
  refine returns_of imp_uni hr ?_
  have hb : b1 = [0] := by cases h1; rfl
  subst hb
  show P.uni ((0 : UInt8) :: (b2 ++ rest)) = _
  rw [P.uni, P.bind_ok (u8_cons _ _)]
  exact hp

/-! ### Handshake -/

/-- The handshake: a Rust server accepts the browser's request however it arrives, and the browser
accepts the answer of the Rust server however it arrives. -/
theorem c90_handshake (s : RecvStream) (ending : StreamEnd)
    (h : Reader.Carries s connectRequest.bytes ending) :
    connectRequest.thrown = none ∧
    (Session.accept none (Session.Reader.new s)).result = .done (.ok ()) ∧
    ∀ (r : Js.Reader) (rest : Bytes) (ending' : StreamEnd),
      Holds r ((Session.accept none (Session.Reader.new s)).written ++ rest) ending' →
      Returns (connectAnswer r) () rest ending' := by
  have hello : Handshake.IsClientHello connectRequest.bytes ⟨[0xff0dad00], []⟩ := by
    obtain ⟨h1, mid, h2, h3⟩ := c90_open_control_partial .client .session .session .session
      ⟨[CURRENT_VERSION], []⟩ ⟨by simp [Safe], by simp [Safe, CURRENT_VERSION, Version.LITE_00],
        by simp [Safe], by simp⟩ ⟨by simp, by simp [DistinctKinds]⟩ []
    rw [List.append_nil] at h2
    exact ⟨mid, [], h2, h3⟩
  have ha := Handshake.accept_hello none s _ ending h _ hello
  rw [if_pos (by rfl)] at ha
  dsimp only at ha
  rw [ha]
  refine ⟨rfl, rfl, fun r rest ending' hr => ?_⟩
  refine returns_of imp_answer hr ?_
  have hw : Wire .serverSetup [0xC0, 0, 0, 0, 0xff, 0x0d, 0xad, 0, 0] ⟨0xff0dad00, []⟩ :=
    ⟨[0xC0, 0, 0, 0, 0xff, 0x0d, 0xad, 0], [0], rfl, ⟨_, _, rfl, rfl, rfl⟩,
      ⟨[0], [], rfl, varint_small 0 (by omega), .nil⟩, by simp [DistinctKinds]⟩
  have hp := parse_kind (fun _ => []) .server ⟨0xff0dad00, []⟩ _ rest hw
    ⟨by simp [Safe], by simp [Safe], by simp⟩
  have hp : P.server _ = _ := hp
  rw [P.answer, P.bind_ok hp]
  rfl

/-- The browser refuses every other version. -/
theorem c90_handshake_version (m : Message.ServerSetup) (bs rest : Bytes)
    (hw : Wire .serverSetup bs m) (hm : JKind.server.Readable m) (hv : m.version ≠ 0xff0dad00)
    (r : Js.Reader) (ending : StreamEnd) (hr : Holds r (bs ++ rest) ending) :
    (connectAnswer r).1 = .thrown (.unsupportedVersion m.version) := by
  have hp : P.server (bs ++ rest) = _ := parse_kind (fun _ => []) .server m bs rest hw hm
  obtain ⟨-, h2, -⟩ := imp_answer r
  have : P.answer r.all = .thrown (.unsupportedVersion m.version) := by
    rw [Reader.all, hr.1, P.answer, P.bind_ok hp]
    have hv' : (JKind.server.image m).version ≠ CURRENT_VERSION := hv
    rw [if_pos hv']
    rfl
  exact h2 _ this

/-! ### What the browser accepts -/

theorem bind_inv {α β : Type} {p : P α} {f : α → P β} {bs rest : Bytes} {b : β}
    (h : P.bind p f bs = .ok b rest) : ∃ a mid, p bs = .ok a mid ∧ f a mid = .ok b rest := by
  cases hp : p bs with
  | ok a mid =>
    rw [P.bind_ok hp] at h
    exact ⟨a, mid, rfl, h⟩
  | thrown e =>
    rw [P.bind_thrown hp] at h
    cases h
  | short =>
    rw [P.bind_short hp] at h
    cases h

theorem u62_inv {bs rest : Bytes} {n : Nat} (h : P.u62 bs = .ok n rest) :
    ∃ u, bs = u ++ rest ∧ Varint u n := by
  cases hd : decodeVarInt bs with
  | error e =>
    rw [decodeVarInt_error bs e hd] at h
    cases h
  | ok x =>
    obtain ⟨v, r⟩ := x
    rw [P.u62, hd] at h
    cases h
    exact (acc_u64 _ _ _).1 hd

theorem u53_inv {bs rest : Bytes} {n : Nat} (h : P.u53 bs = .ok n rest) :
    ∃ u, bs = u ++ rest ∧ Varint u n := by
  obtain ⟨a, mid, h1, h2⟩ := bind_inv h
  split at h2
  · cases h2
  · cases h2
    exact u62_inv h1

theorem take_inv {bs rest b : Bytes} {n : Nat} (h : P.take n bs = .ok b rest) :
    bs = b ++ rest ∧ b.length = n := by
  unfold P.take at h
  split at h
  · cases h
  · cases h
    exact ⟨(List.take_append_drop n bs).symm, by rw [List.length_take]; omega⟩

theorem entries_inv (n : Nat) (pre out : Extensions) (bs rest : Bytes)
    (h : P.entries n pre bs = .ok out rest) (hd : DistinctKinds pre) :
    ∃ u m, bs = u ++ rest ∧ out = pre ++ m ∧ m.length = n ∧ Items Param u m ∧ DistinctKinds out := by
  induction n generalizing pre bs with
  | zero =>
    cases h
    exact ⟨[], [], rfl, by simp, rfl, .nil, hd⟩
  | succ n ih =>
    obtain ⟨id, m1, h1, h'⟩ := bind_inv h
    clear h
    obtain ⟨size, m2, h2, h⟩ := bind_inv h'
    clear h'
    obtain ⟨value, m3, h3, h'⟩ := bind_inv h
    clear h
    have h := h'
    clear h'
    obtain ⟨u1, rfl, v1⟩ := u62_inv h1
    obtain ⟨u2, rfl, v2⟩ := u53_inv h2
    obtain ⟨rfl, hl⟩ := take_inv h3
    split at h
    · cases h
    · rename_i hnew
      have hd' : DistinctKinds (pre ++ [(id, value)]) := by
        unfold DistinctKinds at hd ⊢
        rw [List.map_append, List.nodup_append]
        refine ⟨hd, by simp, fun x hx y hy => ?_⟩
        rintro rfl
        rw [List.map_singleton, List.mem_singleton] at hy
        obtain ⟨e, he, hex⟩ := List.mem_map.1 hx
        exact hnew (List.any_eq_true.2 ⟨e, he, by simp [hex, hy]⟩)
      obtain ⟨u, m, rfl, rfl, hm, hi, hdo⟩ := ih _ _ h hd'
      refine ⟨u1 ++ (u2 ++ value) ++ u, (id, value) :: m, by simp, by simp, by simp [hm], ?_, hdo⟩
      refine .cons ⟨u1, u2 ++ value, rfl, v1, u2, rfl, ?_⟩ hi
      rw [hl]
      exact v2

theorem extensions_inv {bs rest : Bytes} {m : Extensions} (h : P.extensions bs = .ok m rest) :
    ∃ u, bs = u ++ rest ∧ Counted Param u m ∧ DistinctKinds m := by
  obtain ⟨n, mid, h1, h2⟩ := bind_inv h
  obtain ⟨u1, rfl, v1⟩ := u53_inv h1
  obtain ⟨u, m', rfl, hm', hm, hi, hd⟩ := entries_inv n [] m mid rest h2 (by simp [DistinctKinds])
  rw [List.nil_append] at hm'
  subst hm'
  refine ⟨u1 ++ u, by simp, ⟨u1, u, rfl, ?_, hi⟩, hd⟩
  show Varint u1 m.length
  rw [hm]
  exact v1

theorem versions_inv (n : Nat) (pre out : List Nat) (bs rest : Bytes)
    (h : P.versions n pre bs = .ok out rest) :
    ∃ u vs, bs = u ++ rest ∧ out = pre ++ vs ∧ vs.length = n ∧ Items Varint u vs := by
  induction n generalizing pre bs with
  | zero =>
    cases h
    exact ⟨[], [], rfl, by simp, rfl, .nil⟩
  | succ n ih =>
    obtain ⟨v, mid, h1, h'⟩ := bind_inv h
    obtain ⟨u1, rfl, v1⟩ := u53_inv h1
    obtain ⟨u, vs, rfl, rfl, hl, hi⟩ := ih _ _ h'
    exact ⟨u1 ++ u, v :: vs, by simp, by simp, by simp [hl], .cons v1 hi⟩

/-- The kinds of messages without text and priority. -/
def JKind.Strict : JKind → Prop
  | .group | .info | .client | .server => True
  | _ => False

/-- **C90, what the browser accepts (partial).**  A group, a session update, or a setup message that the browser
accepts is one in the wire format, and so is one for every Rust peer, with the same meaning.  In
particular setup messages with an extension twice are not accepted.  (For the other kinds this is
false, see `c90_lenient`.) -/
theorem c90_accepts_partial (L : Lossy) (k : JKind) (hk : k.Strict) (r : Js.Reader) (bytes : Bytes)
    (ending : StreamEnd) (h : Holds r bytes ending) (a : k.Ty) (ha : (k.dec L r).1 = .ok a) :
    ∃ bs m rest, bytes = bs ++ rest ∧ Wire k.rust bs m ∧ a = k.image m ∧
      k.rust.dec bytes = .ok (m, rest) ∧ Holds (k.dec L r).2 rest ending := by
  have hall : r.all = bytes := h.1
  obtain ⟨i1, i2, i3⟩ := imp_kind L k r
  rw [hall] at i1 i2 i3
  have key : ∀ rest, parser L k bytes = .ok a rest → ∃ bs m, bytes = bs ++ rest ∧ Wire k.rust bs m ∧
      a = k.image m := by
    intro rest hp
    cases k with
    | announce => exact hk.elim
    | interest => exact hk.elim
    | subscribe => exact hk.elim
    | subscribeOk => exact hk.elim
    | group =>
      obtain ⟨x, m1, h1, hp⟩ := bind_inv (hp : P.group bytes = _)
      obtain ⟨y, m2, h2, hp⟩ := bind_inv hp
      cases hp
      obtain ⟨u1, rfl, v1⟩ := u62_inv h1
      obtain ⟨u2, rfl, v2⟩ := u53_inv h2
      exact ⟨u1 ++ u2, ⟨x, y⟩, by simp, ⟨u1, u2, rfl, v1, v2⟩, rfl⟩
    | info =>
      obtain ⟨u, rfl, v⟩ := u53_inv (hp : P.u53 bytes = _)
      by_cases h0 : a = 0
      · subst h0
        exact ⟨u, ⟨none⟩, rfl, v, rfl⟩
      · exact ⟨u, ⟨some a⟩, rfl, ⟨h0, v⟩, rfl⟩
    | client =>
      obtain ⟨n, m1, h1, hp⟩ := bind_inv (hp : P.client bytes = _)
      obtain ⟨vs, m2, h2, hp⟩ := bind_inv hp
      obtain ⟨es, m3, h3, hp⟩ := bind_inv hp
      cases hp
      obtain ⟨u1, rfl, v1⟩ := u53_inv h1
      obtain ⟨u2, vs', rfl, hv, hl, hi⟩ := versions_inv _ _ _ _ _ h2
      rw [List.nil_append] at hv
      obtain ⟨u3, rfl, hc, hd⟩ := extensions_inv h3
      subst hv
      refine ⟨u1 ++ u2 ++ u3, ⟨vs, es⟩, by simp, ⟨u1 ++ u2, u3, rfl, ⟨u1, u2, rfl, ?_, hi⟩, hc, hd⟩,
        rfl⟩
      show Varint u1 vs.length
      rw [hl]
      exact v1
    | server =>
      obtain ⟨x, m1, h1, hp⟩ := bind_inv (hp : P.server bytes = _)
      obtain ⟨es, m3, h3, hp⟩ := bind_inv hp
      cases hp
      obtain ⟨u1, rfl, v1⟩ := u53_inv h1
      obtain ⟨u3, rfl, hc, hd⟩ := extensions_inv h3
      exact ⟨u1 ++ u3, ⟨x, es⟩, by simp, ⟨u1, u3, rfl, v1, hc, hd⟩, rfl⟩
  cases hp : parser L k bytes with
  | ok b rest =>
    obtain ⟨r', j1, j2, j3⟩ := i1 b rest hp
    rw [j1] at ha ⊢
    cases ha
    obtain ⟨bs, m, rfl, hw, he⟩ := key rest hp
    exact ⟨bs, m, rest, rfl, hw, he, (c71_decoders_accept _ _ _ _).2 ⟨bs, rfl, hw⟩, j2,
      by rw [j3, h.2]⟩
  | thrown e =>
    rw [i2 e hp] at ha
    cases ha
  | short =>
    rw [i3 hp, h.2] at ha
    cases ending <;> cases ha

example : (SessionServer.decode ⟨[], ⟨[[5, 2, 1, 0, 1, 1, 9]], .idle⟩⟩).1 = .thrown .duplicate ∧
    (SessionServer.decode ⟨[], ⟨[[5, 2, 1, 0, 2, 1, 9]], .idle⟩⟩).1 =
      .ok ⟨5, [(1, []), (2, [9])]⟩ := by
  constructor <;> decide +kernel

/-! ### Where the two implementations disagree -/

/-- **Disagreement.**  The browser takes every status of an announcement but 1 for its end, and
accepts text that is not UTF-8; a Rust peer rejects both. -/
theorem c90_lenient (L : Lossy) :
    (Js.Announce.decode L ⟨[], ⟨[[2, 1, 0x61]], .idle⟩⟩).1 = .ok ⟨ofRust "a", false⟩ ∧
    (∀ m rest, Kind.announce.dec [2, 1, 0x61] ≠ .ok (m, rest)) ∧
    (∃ a, (AnnounceInterest.decode L ⟨[], ⟨[[1, 0xff]], .idle⟩⟩).1 = .ok a) ∧
    (∀ m rest, Kind.announceRequest.dec [1, 0xff] ≠ .ok (m, rest)) := by
  refine ⟨?_, ?_, ⟨_, rfl⟩, ?_⟩
  · have ht : Text [1, 0x61] "a" := ⟨[1], rfl, varint_small 1 (by omega)⟩
    refine (returns_of (rest := []) (imp_announce L) ⟨rfl, rfl⟩ ?_).1
    show P.announce L ([UInt8.ofNat 2] ++ ([1, 0x61] ++ [])) = _
    rw [P.announce, P.bind_ok (u53_varint (varint_small 2 (by omega)) (by unfold Safe; omega)),
      P.bind_ok (text_parse L ht (by unfold NoMark; decide +kernel)
        (by unfold Safe; decide +kernel))]
    rfl
  · intro m rest h
    have : (match Kind.announce.dec [2, 1, 0x61] with | .ok _ => true | .error _ => false) = false := by
      decide +kernel
    rw [h] at this
    cases this
  · intro m rest h
    have : (match Kind.announceRequest.dec [1, 0xff] with | .ok _ => true | .error _ => false)
        = false := by
      decide +kernel
    rw [h] at this
    cases this

/-- What a method does whose bytes never arrive completely. -/
def Starves {α : Type} (o : Res α) : StreamEnd → Prop
  | .fin => o = .thrown .endOfStream
  | .failed e => o = .thrown (.transport e)
  | .idle => o = .waiting

theorem starves_of {α : Type} {d : Rd α} {p : P α} (hi : Implements d p) {r : Js.Reader}
    {bytes : Bytes} {ending : StreamEnd} (h : Holds r bytes ending) (hp : p bytes = .short) :
    Starves (d r).1 ending := by
  obtain ⟨hb, he⟩ := h
  have := (hi r).2.2 (by rw [Reader.all, hb]; exact hp)
  rw [this, he]
  cases ending <;> rfl

theorem u62_high (p : UInt8) (h : 64 ≤ p) : P.u62 [p] = .short := by
  have key : ∀ n : Fin 256, 64 ≤ n.val →
      (match decodeVarInt [UInt8.ofNat n.val] with | .ok _ => false | .error _ => true) = true := by
    decide +kernel
  have := key ⟨p.toNat, p.toNat_lt⟩ h
  rw [UInt8.ofNat_toNat] at this
  cases hd : decodeVarInt [p] with
  | ok x =>
    rw [hd] at this
    cases this
  | error e => exact decodeVarInt_error _ e hd

/-- **Disagreement.**  A Rust peer writes the priority as one byte, the browser reads an integer
of variable length.  A browser never understands a subscription or its confirmation with a
priority of 64 or more: the rest of the integer never comes. -/
theorem c90_priority_starves (L : Lossy) (r : Js.Reader) (ending : StreamEnd) :
    (∀ p : UInt8, 64 ≤ p → Holds r [p] ending → Starves (decodePriority r).1 ending) ∧
    (∀ (m : Message.Subscribe) (bs : Bytes), Wire .subscribe bs m → 64 ≤ m.priority →
      NoMark m.broadcast → Safe (strBytes m.broadcast).length →
      NoMark m.track → Safe (strBytes m.track).length →
      Holds r ([2] ++ bs) ending → Starves (acceptBi L r).1 ending) := by
  refine ⟨fun p hp h => ?_, fun m bs hw hp h1 h2 h3 h4 h => ?_⟩
  · exact starves_of imp_u53 h (P.bind_short (u62_high p hp))
  · obtain ⟨b1, b2, b3, rfl, w1, w2, w3⟩ := hw
    refine starves_of (imp_bi L) h ?_
    show P.bi L ((2 : UInt8) :: (b1 ++ b2 ++ b3 ++ [m.priority])) = _
    rw [P.bi, P.bind_ok (u8_cons _ _)]
    refine P.bind_short ?_
    rw [P.subscribe, List.append_assoc, List.append_assoc,
      P.bind_ok (u62_varint w1), P.bind_ok (text_parse L w2 h1 h2),
      P.bind_ok (text_parse L w3 h3 h4)]
    exact P.bind_short (P.bind_short (u62_high _ hp))

/-- The subscription of a native player to the catalog, priority 100
(rs/hang/src/catalog/root.rs:146), never understood by a browser. -/
example : Wire .subscribe
      [0, 1, 0x61, 12, 0x63, 0x61, 0x74, 0x61, 0x6c, 0x6f, 0x67, 0x2e, 0x6a, 0x73, 0x6f, 0x6e, 100]
      ⟨0, "a", "catalog.json", 100⟩ ∧
    (acceptBi (fun _ => []) ⟨[], ⟨[[2, 0, 1, 0x61, 12, 0x63, 0x61, 0x74, 0x61, 0x6c, 0x6f, 0x67, 0x2e,
      0x6a, 0x73, 0x6f, 0x6e, 100]], .idle⟩⟩).1 = .waiting := by
  constructor
  · refine ⟨[0], [1, 0x61], [12, 0x63, 0x61, 0x74, 0x61, 0x6c, 0x6f, 0x67, 0x2e, 0x6a, 0x73, 0x6f, 0x6e],
      rfl, varint_small 0 (by omega), ⟨[1], rfl, varint_small 1 (by omega)⟩,
      ⟨[12], by decide +kernel, ?_⟩⟩
    exact varint_small 12 (by omega)
  · decide +kernel

theorem varint_long {bs : Bytes} {n : Nat} (h : Varint bs n) (hn : 64 ≤ n) :
    ∃ first rest, bs = first :: rest ∧ rest ≠ [] := by
  obtain ⟨first, rest, rfl, hl, hv⟩ := h
  refine ⟨first, rest, rfl, ?_⟩
  rintro rfl
  simp only [List.length_singleton] at hv
  omega

/-- What a Rust peer does that reads a message and then expects the end of the stream, if a part
of the stream is left. -/
theorem rust_leftover (k : Kind) (s : RecvStream) (bytes rest : Bytes) (ending : StreamEnd) (m : k.Ty)
    (h : Reader.Carries s bytes ending) (hd : k.dec bytes = .ok (m, rest)) (hr : rest ≠ []) :
    ((Session.Reader.new s).decode k.dec).1 = .done (.ok m) ∧
    (((Session.Reader.new s).decode k.dec).2.finished).1 =
      .done (.error (.decode .expectedEnd)) := by
  obtain ⟨a1, a2, a3, a4⟩ := Handshake.decode_new (Message.good_kind k) s bytes ending h
  obtain ⟨b1, -, -, -⟩ := Session.finished_spec _ a4
  simp only [Session.specDecode, hd] at a1 a2
  refine ⟨a1, ?_⟩
  rw [b1, a2, Session.specFinished.eq_def, if_neg hr]

/-- **Disagreement.**  The browser writes a priority of 64 or more as several bytes, of which a Rust
peer reads one: it takes a wrong priority, and then rejects the stream for the bytes left over
(`Reader::finished`, called by rs/moq/src/session/publisher.rs:151 and subscriber.rs:205). -/
theorem c90_priority_cancels (s : RecvStream) (ending : StreamEnd) :
    (∀ p : Nat, 64 ≤ p → Safe p → Reader.Carries s (encodePriority p).bytes ending →
      ∃ q, ((Session.Reader.new s).decode Kind.subscribeOk.dec).1 = .done (.ok q) ∧
        ((Session.Reader.new s).decode Kind.subscribeOk.dec).2.finished.1 =
          .done (.error (.decode .expectedEnd))) ∧
    (∀ m : Js.Subscribe, JKind.subscribe.Fits m → m.id < 2 ^ 62 → 64 ≤ m.priority →
      Reader.Carries s m.encode.bytes ending →
      ∃ q, ((Session.Reader.new s).decode Kind.subscribe.dec).1 =
          .done (.ok ⟨m.id, toRust m.broadcast, toRust m.track, q⟩) ∧
        ((Session.Reader.new s).decode Kind.subscribe.dec).2.finished.1 =
          .done (.error (.decode .expectedEnd))) := by
  refine ⟨fun p hp hs hc => ?_, fun m hf hi hp hc => ?_⟩
  · obtain ⟨-, hv⟩ := varint53 p hs
    obtain ⟨q, rest, he, hr⟩ := varint_long hv hp
    have he : (encodePriority p).bytes = q :: rest := he
    refine ⟨⟨q⟩, rust_leftover .subscribeOk s _ rest ending ⟨q⟩ hc ?_ hr⟩
    refine (c71_decoders_accept .subscribeOk _ _ _).2 ⟨[q], ?_, rfl⟩
    rw [he]
    rfl
  · obtain ⟨f1, f2, f3⟩ := hf
    obtain ⟨b1, b2⟩ := text_write m.broadcast f1
    obtain ⟨t1, t2⟩ := text_write m.track f2
    obtain ⟨-, hv⟩ := varint53 m.priority f3
    obtain ⟨q, rest, he, hr⟩ := varint_long hv hp
    have he : (encodePriority m.priority).bytes = q :: rest := he
    refine ⟨q, rust_leftover .subscribe s _ rest ending ⟨m.id, toRust m.broadcast, toRust m.track, q⟩
      hc ?_ hr⟩
    refine (c71_decoders_accept .subscribe _ _ _).2 ⟨_, ?_, ⟨_, _, _, rfl, varint62 _ hi, b2, t2⟩⟩
    rw [Js.Subscribe.encode, seq_bytes (writeU62_none _), seq_bytes b1, seq_bytes t1, he]
    simp

/-- **Disagreement.**  `TextDecoder` drops a leading U+FEFF: the browser sees another path than the
one that was announced. -/
theorem c90_mark_lost (L : Lossy) (s : String) (hm : s.toList.head? = some (Char.ofNat 0xFEFF))
    (hs : Safe (strBytes s).length) (bs rest : Bytes) (hw : Wire .announce bs (.active s))
    (r : Js.Reader) (ending : StreamEnd) (h : Holds r (bs ++ rest) ending) :
    Returns (Js.Announce.decode L r) ⟨ofRust (String.ofList s.toList.tail), true⟩ rest ending ∧
    ofRust (String.ofList s.toList.tail) ≠ ofRust s := by
  obtain ⟨b, ht, hb⟩ := hw
  dsimp only at hb
  subst hb
  have ht : Text b s := ht
  constructor
  · refine returns_of (imp_announce L) h ?_
    have e : P.string L (b ++ rest) = .ok (units s.toList.tail) rest := by
      rw [string_eq, P.bind_ok (blob_parse ht hs), P.pure, utf8_eq, textDecode_bom L s hm]
    show P.announce L ([UInt8.ofNat 1] ++ b ++ rest) = _
    rw [P.announce, List.append_assoc,
      P.bind_ok (u53_varint (varint_small 1 (by omega)) (by unfold Safe; omega)), P.bind_ok e]
    rw [ofRust, String.toList_ofList]
    rfl
  · intro h
    have h := congrArg String.toList (ofRust_injective h)
    rw [String.toList_ofList] at h
    have hl := congrArg List.length h
    cases hc : s.toList with
    | nil =>
      rw [hc] at hm
      cases hm
    | cons c cs =>
      rw [hc] at hl
      simp at hl

/-- A path "﻿a", announced and read as "a". -/
example : (Js.Announce.decode (fun _ => []) ⟨[], ⟨[[1, 4, 0xEF, 0xBB, 0xBF, 0x61]], .idle⟩⟩).1 =
    .ok ⟨[0x61], true⟩ := by decide +kernel

/-- Numbers above 2^53 - 1, which a Rust peer may send, end in an exception. -/
theorem c90_large_throws (r : Js.Reader) (ending : StreamEnd) (bs rest : Bytes)
    (h : Holds r (bs ++ rest) ending) :
    (∀ m : Message.Group, Wire .group bs m → ¬ Safe m.sequence →
      (Js.Group.decode r).1 = .thrown .tooLarge) ∧
    (∀ n : Nat, Wire .sessionInfo bs ⟨some n⟩ → ¬ Safe n →
      (Js.decodeSessionInfo r).1 = .thrown .tooLarge) := by
  refine ⟨fun m hw hs => ?_, fun n hw hs => ?_⟩
  · obtain ⟨b1, b2, rfl, h1, h2⟩ := hw
    refine (imp_group r).2.1 _ ?_
    rw [Reader.all, h.1, P.group, List.append_assoc, P.bind_ok (u62_varint h1)]
    exact P.bind_thrown (u53_large h2 hs)
  · refine (imp_u53 r).2.1 _ ?_
    rw [Reader.all, h.1]
    exact u53_large hw.2 hs

/-- `Writer.u62` checks no upper bound: the identifier 2^62 is written as another one. -/
theorem c90_u62_wraps : (writeU62 (2 ^ 62)).thrown = none ∧
    decodeU64 (writeU62 (2 ^ 62)).bytes = .ok (0, []) := by
  constructor <;> decide +kernel

/-! ### Examples -/

example : JKind.subscribe.Fits ⟨3, ofRust "roof", ofRust "video", 1⟩ ∧
    JKind.subscribe.Clear ⟨3, ofRust "roof", ofRust "video", 1⟩ ∧
    (JKind.subscribe.enc ⟨3, ofRust "roof", ofRust "video", 1⟩).bytes =
      [3, 4, 0x72, 0x6f, 0x6f, 0x66, 5, 0x76, 0x69, 0x64, 0x65, 0x6f, 1] ∧
    JKind.subscribe.meaning ⟨3, ofRust "roof", ofRust "video", 1⟩ = ⟨3, "roof", "video", 1⟩ := by
  refine ⟨⟨?_, ?_, ?_⟩, ⟨by decide, by decide⟩, by decide +kernel, by decide +kernel⟩ <;>
    unfold Safe <;> decide +kernel

example : Holds ⟨[1], ⟨[[0x40], [2, 7]], .idle⟩⟩ [1, 0x40, 2, 7] .idle ∧
    Wire .group [1, 0x40, 2] ⟨1, 2⟩ ∧ JKind.group.Readable ⟨1, 2⟩ ∧
    Js.Group.decode ⟨[1], ⟨[[0x40], [2, 7]], .idle⟩⟩ = (.ok ⟨1, 2⟩, ⟨[7], ⟨[], .idle⟩⟩) := by
  refine ⟨⟨rfl, rfl⟩, ⟨[1], [0x40, 2], rfl, ⟨_, _, rfl, rfl, rfl⟩, ⟨_, _, rfl, rfl, rfl⟩⟩, ?_,
    by decide +kernel⟩
  show (2 : Nat) ≤ 2 ^ 53 - 1
  omega

example : Reader.Carries ⟨[[0, 1, 0xC0], [0, 0, 0, 0xff, 0x0d, 0xad, 0, 0]], .idle⟩
    connectRequest.bytes .idle := ⟨by decide +kernel, rfl, by decide⟩

/-! ## C91 -/

/-- The messages of the browser and the frames. -/
inductive Item where
  | message (k : JKind)
  | frame

abbrev Item.Ty : Item → Type
  | .message k => k.Ty
  | .frame => Bytes

/-- The method that reads the item. -/
abbrev Item.dec (L : Lossy) : (i : Item) → Rd i.Ty
  | .message k => k.dec L
  | .frame => decodeFrame

/-- The bytes of an item which the browser understands as `a`. -/
def Item.Sent : (i : Item) → Bytes → i.Ty → Prop
  | .message k => fun bs a => ∃ m, Wire k.rust bs m ∧ k.Readable m ∧ a = k.image m
  | .frame => fun bs payload => Blob bs payload ∧ Safe payload.length

def Item.parser (L : Lossy) : (i : Item) → P i.Ty
  | .message k => JsWire.parser L k
  | .frame => P.frame

theorem imp_item (L : Lossy) (i : Item) : Implements (i.dec L) (i.parser L) := by
  cases i with
  | message k => exact imp_kind L k
  | frame => exact imp_frame

theorem keeps_item (L : Lossy) (i : Item) : Keeps (i.dec L) := by
  cases i with
  | frame => exact keeps_frame
  | message k =>
    cases k
    · exact keeps_announce L
    · exact keeps_interest L
    · exact keeps_group
    · exact keeps_u53
    · exact keeps_client
    · exact keeps_server
    · exact keeps_subscribe L
    · exact keeps_u53

theorem sound_item (L : Lossy) (i : Item) : Sound (i.parser L) := by
  cases i with
  | frame => exact sound_frame
  | message k =>
    cases k
    · exact sound_announce L
    · exact sound_interest L
    · exact sound_group
    · exact sound_u53
    · exact sound_client
    · exact sound_server
    · exact sound_subscribe L
    · exact sound_u53

theorem parse_nil (L : Lossy) (i : Item) : i.parser L [] = .short := by
  cases i with
  | frame => rfl
  | message k => cases k <;> rfl

theorem parse_item (L : Lossy) (i : Item) (bs rest : Bytes) (a : i.Ty) (h : i.Sent bs a) :
    i.parser L (bs ++ rest) = .ok a rest := by
  cases i with
  | frame => exact blob_parse h.1 h.2
  | message k =>
    obtain ⟨m, hw, hr, rfl⟩ := h
    exact parse_kind L k m bs rest hw hr

/-- **C91, pieces.**  What a method of the browser's reader returns or throws, or that it waits,
depends only on the bytes of the stream and on its end; and so does what it leaves. -/
theorem c91_pieces (L : Lossy) (i : Item) (r r' : Js.Reader) (bytes : Bytes) (ending : StreamEnd)
    (h : Holds r bytes ending) (h' : Holds r' bytes ending) :
    (i.dec L r).1 = (i.dec L r').1 ∧
    ∀ a, (i.dec L r).1 = .ok a →
      ∃ rest, Holds (i.dec L r).2 rest ending ∧ Holds (i.dec L r').2 rest ending := by
  obtain ⟨a1, a2, a3⟩ := imp_item L i r
  obtain ⟨b1, b2, b3⟩ := imp_item L i r'
  have e1 : r.all = bytes := h.1
  have e2 : r'.all = bytes := h'.1
  rw [e1] at a1 a2 a3
  rw [e2] at b1 b2 b3
  cases hp : i.parser L bytes with
  | ok a rest =>
    obtain ⟨s, s1, s2, s3⟩ := a1 a rest hp
    obtain ⟨t, t1, t2, t3⟩ := b1 a rest hp
    rw [s1, t1]
    exact ⟨rfl, fun _ _ => ⟨rest, ⟨s2, s3.trans h.2⟩, ⟨t2, t3.trans h'.2⟩⟩⟩
  | thrown e =>
    rw [a2 e hp, b2 e hp]
    exact ⟨rfl, fun a h => by cases h⟩
  | short =>
    rw [a3 hp, b3 hp, h.2, h'.2]
    refine ⟨rfl, fun a h => ?_⟩
    cases ending <;> cases h

/-- The replies to `n` reads one after the other, each preceded by the check for the end (the
loops of announcements, updates and frames: js/moq/src/wire/announce.ts:23-26,
js/moq/src/subscriber.ts:168-174). -/
def replies {α : Type} (d : Rd α) : Nat → Js.Reader → List (Res (Option α))
  | 0, _ => []
  | n + 1, r => (decodeMaybe d r).1 :: replies d n (decodeMaybe d r).2

/-- The reply after the last complete item. -/
def lastReply {α : Type} (ending : StreamEnd) (cut : Bytes) : Res (Option α) :=
  match ending with
  | .fin => if cut = [] then .ok none else .thrown .endOfStream
  | .failed e => .thrown (.transport e)
  | .idle => .waiting

/-- The beginning of an item, not all of it. -/
def PartOf (i : Item) (cut : Bytes) : Prop :=
  ∃ (a : i.Ty) (missing : Bytes), i.Sent (cut ++ missing) a ∧ missing ≠ []

theorem part_short (L : Lossy) (i : Item) (cut : Bytes) (h : PartOf i cut) :
    i.parser L cut = .short := by
  obtain ⟨a, missing, hs, hm⟩ := h
  have hp := parse_item L i _ [] a hs
  obtain ⟨used, hu, -, h2⟩ := sound_item L i _ _ _ hp
  rw [List.append_nil, List.append_nil] at hu
  exact h2 cut missing hu.symm hm

/-- **C91, sequences.**  Reading items until the end of a stream returns exactly the items sent, in
order; then it reports the end if the stream was finished right after them, throws if it was
finished inside a further item or failed, and otherwise waits. -/
theorem c91_items (L : Lossy) (i : Item) (sent : List (Bytes × i.Ty))
    (hs : ∀ x ∈ sent, i.Sent x.1 x.2) (cut : Bytes) (hcut : PartOf i cut) (ending : StreamEnd)
    (r : Js.Reader) (hr : ∀ c ∈ r.stream.chunks, c ≠ [])
    (h : Holds r ((sent.map (·.1)).flatten ++ cut) ending) :
    replies (i.dec L) (sent.length + 1) r =
      sent.map (fun x => .ok (some x.2)) ++ [lastReply ending cut] := by
  induction sent generalizing r with
  | nil =>
    have hall : r.all = cut := h.1
    simp only [List.length_nil, replies, List.map_nil, List.nil_append,
      List.cons.injEq, and_true]
    by_cases h0 : cut = []
    · have hd := done_end r hr (by rw [hall, h0])
      rw [h.2] at hd
      unfold decodeMaybe Rd.bind
      revert hd
      generalize done r = x
      intro hd
      obtain ⟨o, r'⟩ := x
      subst hd
      cases ending with
      | fin =>
        subst h0
        rfl
      | failed e => rfl
      | idle => rfl
    · obtain ⟨r', d1, d2, d3, -⟩ := done_more r hr (by rw [hall]; exact h0)
      have hsh := (imp_item L i r').2.2 (by rw [d2, hall]; exact part_short L i cut hcut)
      rw [d3, h.2] at hsh
      unfold decodeMaybe
      rw [Rd.bind_of d1]
      show (Rd.bind (i.dec L) _ r').1 = _
      unfold Rd.bind
      revert hsh
      generalize i.dec L r' = x
      intro hsh
      obtain ⟨o, r''⟩ := x
      subst hsh
      unfold lastReply
      cases ending with
      | fin =>
        rw [if_neg h0]
        rfl
      | failed e => rfl
      | idle => rfl
  | cons x xs ih =>
    have hx := hs x (by simp)
    have hall : r.all = x.1 ++ ((xs.map (·.1)).flatten ++ cut) := by
      have := h.1
      simpa [Reader.all] using this
    have hp := parse_item L i x.1 ((xs.map (·.1)).flatten ++ cut) x.2 hx
    have hne : r.all ≠ [] := by
      intro h0
      rw [← hall, h0, parse_nil] at hp
      cases hp
    obtain ⟨r', d1, d2, d3, d4⟩ := done_more r hr hne
    obtain ⟨r'', e1, e2, e3⟩ := (imp_item L i r').1 _ _ (by rw [d2, hall]; exact hp)
    have e4 : r''.stream.chunks <:+ r'.stream.chunks := by
      have := keeps_item L i r'
      rwa [e1] at this
    have hm : decodeMaybe (i.dec L) r = (.ok (some x.2), r'') := by
      unfold decodeMaybe
      rw [Rd.bind_of d1]
      show Rd.bind (i.dec L) _ r' = _
      rw [Rd.bind_of e1]
      rfl
    rw [List.length_cons, replies, hm, List.map_cons, List.cons_append,
      ih (fun y hy => hs y (by simp [hy])) r''
        (fun c hc => hr c ((e4.trans d4).subset hc)) ⟨e2, by rw [e3, d3, h.2]⟩]

/-- The end is reported only at the end of a finished stream with every byte consumed, however
the bytes are cut. -/
theorem c91_end_only_at_end (L : Lossy) (i : Item) (r : Js.Reader)
    (h : (decodeMaybe (i.dec L) r).1 = .ok none) : Holds r [] .fin := by
  have hd : (done r).1 = .ok true := by
    cases hx : done r with
    | mk o r' =>
      cases o with
      | thrown e =>
        unfold decodeMaybe Rd.bind at h
        rw [hx] at h
        cases h
      | waiting =>
        unfold decodeMaybe Rd.bind at h
        rw [hx] at h
        cases h
      | ok b =>
        cases b with
        | true => rfl
        | false =>
          unfold decodeMaybe at h
          rw [Rd.bind_of hx] at h
          have h : (Rd.bind (i.dec L) (fun a => Rd.pure (some a)) r').1 = .ok none := h
          unfold Rd.bind at h
          revert h
          generalize i.dec L r' = y
          obtain ⟨o, r''⟩ := y
          cases o <;> intro h <;> cases h
  obtain ⟨h1, h2, h3⟩ := done_true r hd
  exact ⟨by rw [h1, h2]; rfl, h3⟩

/-- Without the condition on pieces: the browser mistakes an empty last piece for more data, and a
finished stream for one that was cut. -/
theorem c91_empty_piece : (decodeMaybe decodeFrame ⟨[], ⟨[[]], .fin⟩⟩).1 = .thrown .endOfStream := by
  decide +kernel

example : Item.frame.Sent [2, 7, 8] [7, 8] ∧ PartOf .frame [2, 9] ∧
    replies decodeFrame 2 ⟨[], ⟨[[2], [7, 8, 2], [9]], .fin⟩⟩ =
      [.ok (some [7, 8]), .thrown .endOfStream] := by
  refine ⟨⟨⟨[2], rfl, varint_small 2 (by omega)⟩, ?_⟩,
    ⟨[9, 1], [1], ⟨⟨[2], rfl, varint_small 2 (by omega)⟩, ?_⟩, by simp⟩, by decide +kernel⟩ <;>
  · show (2 : Nat) ≤ 2 ^ 53 - 1
    omega

end Verif.Props.JsWire
