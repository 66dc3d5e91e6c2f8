import Verif.Message.Lemmas

/-!
# Properties C06 and C08–C10: protocol messages
-/

namespace Verif.Props.Message

open Verif Verif.Coding Verif.Message

/-! ## Specification: the kinds of messages -/

/-- The kinds of protocol messages. -/
inductive Kind where
  | announce | announceRequest | extensions | frame | group | sessionInfo | version | versions
  | clientSetup | serverSetup | controlType | dataType | subscribe | subscribeOk

/-- The messages of a kind. -/
abbrev Kind.Ty : Kind → Type
  | .announce => Announce
  | .announceRequest => AnnounceRequest
  | .extensions => Extensions
  | .frame => Frame
  | .group => Group
  | .sessionInfo => SessionInfo
  | .version => Version
  | .versions => List Version
  | .clientSetup => ClientSetup
  | .serverSetup => ServerSetup
  | .controlType => ControlType
  | .dataType => DataType
  | .subscribe => Subscribe
  | .subscribeOk => SubscribeOk

/-- The encoder of a kind. -/
abbrev Kind.enc : (k : Kind) → k.Ty → Enc
  | .announce => encodeAnnounce
  | .announceRequest => encodeAnnounceRequest
  | .extensions => encodeExtensions
  | .frame => encodeFrame
  | .group => encodeGroup
  | .sessionInfo => encodeSessionInfo
  | .version => encodeVersion
  | .versions => encodeVersions
  | .clientSetup => encodeClientSetup
  | .serverSetup => encodeServerSetup
  | .controlType => encodeControlType
  | .dataType => encodeDataType
  | .subscribe => encodeSubscribe
  | .subscribeOk => encodeSubscribeOk

/-- The decoder of a kind. -/
abbrev Kind.dec : (k : Kind) → Dec k.Ty
  | .announce => decodeAnnounce
  | .announceRequest => decodeAnnounceRequest
  | .extensions => decodeExtensions
  | .frame => decodeFrame
  | .group => decodeGroup
  | .sessionInfo => decodeSessionInfo
  | .version => decodeVersion
  | .versions => decodeVersions
  | .clientSetup => decodeClientSetup
  | .serverSetup => decodeServerSetup
  | .controlType => decodeControlType
  | .dataType => decodeDataType
  | .subscribe => decodeSubscribe
  | .subscribeOk => decodeSubscribeOk

/-- No two entries of an extension list have the same kind.  A hash map always satisfies
this; it is part of the representation of a map by a list. -/
def DistinctKinds (m : Extensions) : Prop := (m.map (·.1)).Nodup

/-- The values of a kind that exist in the code: extension lists represent maps. -/
abbrev Kind.Exists : (k : Kind) → k.Ty → Prop
  | .extensions => fun m => DistinctKinds m
  | .clientSetup => fun m => DistinctKinds m.extensions
  | .serverSetup => fun m => DistinctKinds m.extensions
  | _ => fun _ => True

/-- The length of a byte string or list, or a number, fits in a wire integer. -/
def Fits (n : Nat) : Prop := n < 2 ^ 62

/-- All parameters of an extension map fit. -/
def ExtensionsFit (m : Extensions) : Prop :=
  Fits m.length ∧ ∀ e ∈ m, Fits e.1 ∧ Fits e.2.length

/-- All numbers and lengths of a message fit in wire integers. -/
abbrev Kind.Fits : (k : Kind) → k.Ty → Prop
  | .announce => fun m => Message.Fits (strBytes m.suffix).length
  | .announceRequest => fun m => Message.Fits (strBytes m.prefix).length
  | .extensions => fun m => ExtensionsFit m
  | .frame => fun m => Message.Fits m.size
  | .group => fun m => Message.Fits m.subscribe ∧ Message.Fits m.sequence
  | .sessionInfo => fun m => ∀ b, m.bitrate = some b → Message.Fits b
  | .version => fun v => Message.Fits v
  | .versions => fun vs => Message.Fits vs.length ∧ ∀ v ∈ vs, Message.Fits v
  | .clientSetup => fun m =>
      (Message.Fits m.versions.length ∧ ∀ v ∈ m.versions, Message.Fits v) ∧
        ExtensionsFit m.extensions
  | .serverSetup => fun m => Message.Fits m.version ∧ ExtensionsFit m.extensions
  | .controlType => fun _ => True
  | .dataType => fun _ => True
  | .subscribe => fun m => Message.Fits m.id ∧ Message.Fits (strBytes m.broadcast).length ∧
      Message.Fits (strBytes m.track).length
  | .subscribeOk => fun _ => True

/-- The message as the receiver sees it: equal to the one sent, except that a session-info
message with a bitrate of `some 0` is seen as having none. -/
abbrev Kind.Seen : (k : Kind) → (sent received : k.Ty) → Prop
  | .sessionInfo => fun m m' =>
      (m.bitrate = some 0 ∧ m'.bitrate = none) ∨ (m.bitrate ≠ some 0 ∧ m' = m)
  | _ => fun m m' => m' = m

/-! ## Helpers -/

def Encodes (e : Enc) : Prop := ∃ bs, wire e = .ok bs

theorem encodes_seq (a b : Enc) : Encodes (a ⨾ b) ↔ Encodes a ∧ Encodes b := by
  constructor
  · rintro ⟨bs, h⟩
    obtain ⟨x, y, h1, h2, _⟩ := wire_seq_ok.1 h
    exact ⟨⟨x, h1⟩, ⟨y, h2⟩⟩
  · rintro ⟨⟨x, h1⟩, ⟨y, h2⟩⟩
    exact ⟨_, wire_seq_of h1 h2⟩

theorem encodes_u64 (v : Nat) : Encodes (encodeU64 v) ↔ Fits v := by
  constructor
  · rintro ⟨bs, h⟩; exact (encodeU64_ok.1 h).1
  · intro h; exact ⟨_, encodeU64_ok.2 ⟨h, wire_varint v h⟩⟩

theorem encodes_ok (ps : List Put) : Encodes (.ok ps) ↔ True := by
  simp [Encodes, wire]

theorem encodes_items {α} (enc : α → Enc) (xs : List α) :
    Encodes (encodeItems enc xs) ↔ ∀ x ∈ xs, Encodes (enc x) := by
  induction xs with
  | nil => simp [encodeItems, encodes_ok]
  | cons x xs ih => simp [encodeItems, encodes_seq, ih]

theorem encodes_vec {α} (enc : α → Enc) (xs : List α) :
    Encodes (encodeVec enc xs) ↔ Fits xs.length ∧ ∀ x ∈ xs, Encodes (enc x) := by
  rw [encodeVec, encodes_seq, encodes_u64, encodes_items]

theorem encodes_string (s : String) : Encodes (encodeString s) ↔ Fits (strBytes s).length := by
  rw [encodeString, encodes_seq, encodes_u64, encodes_ok, and_true]

theorem encodes_extensions (m : Extensions) :
    Encodes (encodeExtensions m) ↔ ExtensionsFit m := by
  rw [encodeExtensions, encodes_seq, encodes_u64, encodes_items, ExtensionsFit]
  simp only [encodeParam, encodes_seq, encodes_u64, encodes_vec, encodeU8, encodes_ok,
    implies_true, and_true]

theorem encodes_versions (m : List Version) :
    Encodes (encodeVersions m) ↔ Fits m.length ∧ ∀ v ∈ m, Fits v := by
  rw [encodeVersions, encodes_seq, encodes_u64, encodes_items]
  simp only [encodeVersion, encodes_u64]

theorem good_kind (k : Kind) : Good k.dec := by
  cases k
  · exact good_announce
  · exact good_announceRequest
  · exact good_extensions
  · exact good_frame
  · exact good_group
  · exact good_sessionInfo
  · exact good_u64
  · exact good_versions
  · exact good_clientSetup
  · exact good_serverSetup
  · exact good_controlType
  · exact good_dataType
  · exact good_subscribe
  · exact good_subscribeOk

theorem encodeAll_inj {α} {P : α → Prop} {enc : α → Enc} {dec : Dec α}
    (hr : RoundTripsOn P enc dec) (hnil : dec [] = .error .short)
    (xs ys : List α) (hx : ∀ x ∈ xs, P x) (hy : ∀ y ∈ ys, P y) (bs : Bytes)
    (h : wire (encodeAll enc xs) = .ok bs) (h' : wire (encodeAll enc ys) = .ok bs) :
    xs = ys := by
  induction xs generalizing ys bs with
  | nil =>
    simp only [encodeAll, wire_ok, List.flatMap_nil, Except.ok.injEq] at h
    subst h
    cases ys with
    | nil => rfl
    | cons y ys =>
      obtain ⟨a, b, h1, h2, h3⟩ := wire_seq_ok.1 h'
      rw [(List.append_eq_nil_iff.1 h3.symm).1] at h1
      have := hr y [] [] (hy y (by simp)) h1
      rw [List.append_nil, hnil] at this
      cases this
  | cons x xs ih =>
    obtain ⟨a, b, h1, h2, h3⟩ := wire_seq_ok.1 h
    cases ys with
    | nil =>
      simp only [encodeAll, wire_ok, List.flatMap_nil, Except.ok.injEq] at h'
      subst h'
      rw [(List.append_eq_nil_iff.1 h3.symm).1] at h1
      have := hr x [] [] (hx x (by simp)) h1
      rw [List.append_nil, hnil] at this
      cases this
    | cons y ys =>
      obtain ⟨a', b', h1', h2', h3'⟩ := wire_seq_ok.1 h'
      have d1 := hr x a b (hx x (by simp)) h1
      have d2 := hr y a' b' (hy y (by simp)) h1'
      rw [← h3] at d1
      rw [← h3', d1] at d2
      injection d2 with d2
      injection d2 with d2 d3
      subst d2 d3
      rw [ih ys (fun z hz => hx z (by simp [hz])) (fun z hz => hy z (by simp [hz])) b h2 h2']

/-! ## C06 -/

/-- Every message of every kind that can be encoded decodes to an equal message (up to the
session-info exception), leaving exactly the bytes that follow it. -/
theorem c06_messages_roundtrip (k : Kind) (m : k.Ty) (hm : k.Exists m) (bs rest : Bytes)
    (h : wire (k.enc m) = .ok bs) :
    ∃ m', k.dec (bs ++ rest) = .ok (m', rest) ∧ k.Seen m m' := by
  cases k with
  | announce => exact ⟨_, rt_announce m bs rest h, rfl⟩
  | announceRequest => exact ⟨_, rt_announceRequest m bs rest h, rfl⟩
  | extensions => exact ⟨_, rt_extensions m bs rest hm h, rfl⟩
  | frame => exact ⟨_, rt_frame m bs rest h, rfl⟩
  | group => exact ⟨_, rt_group m bs rest h, rfl⟩
  | sessionInfo =>
    refine ⟨_, decodeSessionInfo_encode m bs rest h, ?_⟩
    by_cases hz : m.bitrate = some 0
    · exact .inl ⟨hz, by rw [if_pos hz]⟩
    · exact .inr ⟨hz, by rw [if_neg hz]⟩
  | version => exact ⟨_, rt_u64 m bs rest h, rfl⟩
  | versions => exact ⟨_, rt_versions m bs rest h, rfl⟩
  | clientSetup => exact ⟨_, rt_clientSetup m bs rest hm h, rfl⟩
  | serverSetup => exact ⟨_, rt_serverSetup m bs rest hm h, rfl⟩
  | controlType => exact ⟨_, rt_controlType m bs rest h, rfl⟩
  | dataType => exact ⟨_, rt_dataType m bs rest h, rfl⟩
  | subscribe => exact ⟨_, rt_subscribe m bs rest h, rfl⟩
  | subscribeOk => exact ⟨_, rt_subscribeOk m bs rest h, rfl⟩

/-- A message can be encoded exactly if its numbers and lengths fit in wire integers. -/
theorem c06_encodable (k : Kind) (m : k.Ty) :
    (∃ bs, wire (k.enc m) = .ok bs) ↔ k.Fits m := by
  show Encodes _ ↔ _
  cases k with
  | announce =>
    cases m with
    | active s =>
      simp only [Kind.enc, Kind.Fits, encodeAnnounce, encodes_seq, encodeAnnounceStatus, encodeU8,
        encodes_ok, encodes_string, true_and, Announce.suffix]
    | ended s =>
      simp only [Kind.enc, Kind.Fits, encodeAnnounce, encodes_seq, encodeAnnounceStatus, encodeU8,
        encodes_ok, encodes_string, true_and, Announce.suffix]
  | announceRequest => exact encodes_string _
  | extensions => exact encodes_extensions m
  | frame => exact encodes_u64 _
  | group => simp only [Kind.enc, Kind.Fits, encodeGroup, encodes_seq, encodes_u64]
  | sessionInfo =>
    obtain ⟨b⟩ := m
    simp only [Kind.enc, Kind.Fits, encodeSessionInfo, encodes_u64]
    cases b with
    | none => simp [Fits]
    | some b => simp
  | version => exact encodes_u64 _
  | versions => exact encodes_versions _
  | clientSetup =>
    simp only [Kind.enc, Kind.Fits, encodeClientSetup, encodes_seq, encodes_versions,
      encodes_extensions]
  | serverSetup =>
    simp only [Kind.enc, Kind.Fits, encodeServerSetup, encodes_seq, encodeVersion, encodes_u64,
      encodes_extensions]
  | controlType =>
    refine iff_of_true ?_ trivial
    cases m
    · exact (encodes_u64 0).2 (by norm_num [Fits])
    · exact (encodes_u64 1).2 (by norm_num [Fits])
    · exact (encodes_u64 2).2 (by norm_num [Fits])
  | dataType =>
    refine iff_of_true ?_ trivial
    cases m
    exact (encodes_u64 0).2 (by norm_num [Fits])
  | subscribe =>
    simp only [Kind.enc, Kind.Fits, encodeSubscribe, encodes_seq, encodes_u64, encodes_string,
      encodeU8, encodes_ok, and_true]
  | subscribeOk => exact encodes_ok _

/-- The exception is real: there is an encodable message that decodes to a different one. -/
theorem c06_sessionInfo_zero_lost :
    ∃ bs, wire (encodeSessionInfo ⟨some 0⟩) = .ok bs ∧
      decodeSessionInfo bs = .ok (⟨none⟩, []) :=
  ⟨_, rfl, rfl⟩

example : Kind.Exists .clientSetup ⟨[0xff0dad00, 7], [(1, [2, 3]), (9, [])]⟩ ∧
    Kind.Fits .clientSetup ⟨[0xff0dad00, 7], [(1, [2, 3]), (9, [])]⟩ := by
  refine ⟨?_, ?_⟩
  · unfold Kind.Exists DistinctKinds; decide
  · simp [Kind.Fits, ExtensionsFit, Fits]

/-! ## C08 -/

/-- Appending bytes never changes an outcome other than "short", and a successful decode
consumes a prefix of the buffer and depends on nothing else. -/
theorem c08_stable (k : Kind) : StableUnderMoreInput k.dec ∧ DecidesOnPrefix k.dec :=
  ⟨stable_of (good_kind k).1 (good_kind k).2, (good_kind k).1⟩

/-- Every strict prefix of an encoded message is reported as short. -/
theorem c08_truncation (k : Kind) (m : k.Ty) (hm : k.Exists m) (bs cut missing : Bytes)
    (h : wire (k.enc m) = .ok bs) (hcut : bs = cut ++ missing) (hmiss : missing ≠ []) :
    k.dec cut = .error .short := by
  obtain ⟨m', hd, _⟩ := c06_messages_roundtrip k m hm bs [] h
  rw [List.append_nil, hcut] at hd
  exact short_of_cut (good_kind k).1 (good_kind k).2 hd hmiss

example : ∃ bs cut missing, wire (encodeGroup ⟨3, 70⟩) = .ok bs ∧ bs = cut ++ missing ∧
    missing ≠ [] := ⟨_, [3, 0x40], [70], rfl, rfl, by simp⟩

/-! ## C09 -/

/-- Decoding the concatenated encodings of a sequence of messages returns the sequence, and
so two sequences with the same encoding are equal.  Partial: session-info messages are
excluded, for which the claim is false (`c09_sessionInfo_ambiguous`). -/
theorem c09_uniquely_decodable_partial (k : Kind) (hk : k ≠ .sessionInfo) (ms ms' : List k.Ty)
    (h : ∀ m ∈ ms, k.Exists m) (h' : ∀ m ∈ ms', k.Exists m) (bs : Bytes)
    (hw : wire (encodeAll k.enc ms) = .ok bs) (hw' : wire (encodeAll k.enc ms') = .ok bs) :
    ms = ms' ∧ ∀ rest, decodeCount k.dec ms.length (bs ++ rest) = .ok (ms, rest) := by
  have hr : RoundTripsOn k.Exists k.enc k.dec := by
    intro m bs rest hm hw
    obtain ⟨m', hd, hs⟩ := c06_messages_roundtrip k m hm bs rest hw
    have : m' = m := by
      cases k <;> first | exact hs | exact absurd rfl hk
    rw [this] at hd
    exact hd
  have hnil : k.dec [] = .error .short := by cases k <;> rfl
  refine ⟨?_, fun rest => decodeCount_encodeAll hr ms h bs rest hw⟩
  exact encodeAll_inj hr hnil ms ms' h h' bs hw hw'

example : ∃ bs, wire (encodeAll encodeSubscribe [⟨1, "a", "b", 0⟩, ⟨2, "a", "b", 9⟩]) = .ok bs :=
  ⟨_, rfl⟩

/-- Two different session-info messages have the same encoding. -/
theorem c09_sessionInfo_ambiguous :
    ∃ (m m' : SessionInfo) (bs : Bytes), m ≠ m' ∧ wire (encodeAll encodeSessionInfo [m]) = .ok bs ∧
      wire (encodeAll encodeSessionInfo [m']) = .ok bs :=
  ⟨⟨some 0⟩, ⟨none⟩, _, by decide, rfl, rfl⟩

/-! ## C10 -/

/-- The value a parameter list gives to a kind: that of the entry with this kind. -/
def Provides (m : Extensions) (kind : Nat) (value : Bytes) : Prop := (kind, value) ∈ m

/-- Whatever order a map is serialised in, the decoded map is the same. -/
theorem c10_order_independent (m order : Extensions) (hm : DistinctKinds m)
    (hp : order.Perm m) (bs rest : Bytes) (h : wire (encodeExtensions order) = .ok bs) :
    ∃ m', decodeExtensions (bs ++ rest) = .ok (m', rest) ∧ DistinctKinds m' ∧
      (∀ kind value, Provides m' kind value ↔ Provides m kind value) ∧
      ∀ kind value, Extensions.lookup m' kind = some value ↔ Provides m kind value := by
  have ho : Extensions.Distinct order := (hp.map (fun e : Nat × Bytes => e.1)).nodup_iff.2 hm
  refine ⟨order, rt_extensions order bs rest ho h, ho, fun k v => hp.mem_iff, fun k v => ?_⟩
  unfold Provides
  rw [← hp.mem_iff]
  exact lookup_eq_some_iff ho k v

/-- A wire list of `count` parameters that starts with `ps` of distinct kinds and goes on with
a kind that has already occurred is rejected as a duplicate, whatever follows. -/
theorem c10_duplicate_rejected (count : Nat) (ps : Extensions) (kind : Nat)
    (cb pb kb rest : Bytes) (hd : DistinctKinds ps) (hlt : ps.length < count)
    (hk : ∃ value, Provides ps kind value)
    (hc : wire (encodeU64 count) = .ok cb) (hp : wire (encodeItems encodeParam ps) = .ok pb)
    (hkb : wire (encodeU64 kind) = .ok kb) :
    decodeExtensions (cb ++ pb ++ kb ++ rest) = .error .duplicateParameter := by
  obtain ⟨v, hv⟩ := hk
  obtain ⟨n, rfl⟩ : ∃ n, count = ps.length + (n + 1) := ⟨count - ps.length - 1, by omega⟩
  rw [decodeExtensions, List.append_assoc, List.append_assoc, Dec.bind_ok (rt_u64 _ cb _ hc)]
  exact extLoop_dup ps n kind pb kb rest hd (List.mem_map.2 ⟨_, hv, rfl⟩) hp hkb

/-- Every complete parameter list is either decoded to exactly the listed parameters or, if a
kind occurs twice, rejected as a duplicate. -/
theorem c10_complete_list (ps : Extensions) (bs rest : Bytes)
    (h : wire (encodeExtensions ps) = .ok bs) :
    (DistinctKinds ps ∧ decodeExtensions (bs ++ rest) = .ok (ps, rest)) ∨
    (¬ DistinctKinds ps ∧ decodeExtensions (bs ++ rest) = .error .duplicateParameter) := by
  by_cases hd : DistinctKinds ps
  · exact .inl ⟨hd, rt_extensions ps bs rest hd h⟩
  · refine .inr ⟨hd, ?_⟩
    obtain ⟨b1, b2, h1, h2, rfl⟩ := wire_seq_ok.1 h
    rw [List.append_assoc, decodeExtensions, Dec.bind_ok (rt_u64 _ b1 _ h1)]
    exact extLoop_not_nodup ps [] b2 rest (by simp) (by rw [List.nil_append]; exact hd) h2

/-- Whatever the bytes, a decoded map has no kind twice. -/
theorem c10_decoded_distinct (bs : Bytes) (m : Extensions) (rest : Bytes)
    (h : decodeExtensions bs = .ok (m, rest)) : DistinctKinds m := by
  unfold decodeExtensions at h
  cases h1 : decodeU64 bs with
  | error e => rw [Dec.bind_error h1] at h; cases h
  | ok p =>
    obtain ⟨n, r⟩ := p
    rw [Dec.bind_ok h1] at h
    exact distinct_of_extLoop n [] (by simp [Extensions.Distinct]) r m rest h

example : DistinctKinds [(5, [1]), (6, [])] ∧ ¬ DistinctKinds [(5, [1]), (5, [2])] := by
  constructor <;> (unfold DistinctKinds; decide)
example : ∃ bs, wire (encodeExtensions [(5, [1]), (5, [2])]) = .ok bs := ⟨_, rfl⟩

end Verif.Props.Message
