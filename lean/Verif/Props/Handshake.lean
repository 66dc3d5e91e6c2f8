import Verif.Session.Handshake
import Verif.Props.Reader
import Mathlib.Tactic.Linarith

/-!
# Properties C14–C17: handshake, dispatch, error codes, priorities
-/

namespace Verif.Props.Handshake

open Verif Verif.Coding Verif.Message Verif.Session Verif.Props.Message Verif.Props.Reader

/-! ## Helpers -/

theorem decode_new {α} {d : Dec α} (hd : Good d) (s : RecvStream) (bytes : Bytes)
    (ending : StreamEnd) (h : Carries s bytes ending) :
    ((Reader.new s).decode d).1 = (specDecode d ending bytes).1 ∧
    ((Reader.new s).decode d).2.content = (specDecode d ending bytes).2 ∧
    ((Reader.new s).decode d).2.stream.ending = ending ∧ ((Reader.new s).decode d).2.Ok := by
  have := decode_spec hd (Reader.new s) h.2.2
  have hc : (Reader.new s).content = bytes := by simp [Reader.content, Reader.new, h.1]
  rwa [hc, show (Reader.new s).stream.ending = ending from h.2.1] at this

theorem decode_pair {α} {d : Dec α} (r : Reader) {o : Outcome α} (h : (r.decode d).1 = o) :
    r.decode d = (o, (r.decode d).2) := by rw [← h]

/-! ## C14 -/

/-- The bytes of a stream are a session stream type followed by a client setup. -/
def IsClientHello (bytes : Bytes) (client : ClientSetup) : Prop :=
  ∃ afterType rest, decodeControlType bytes = .ok (.session, afterType) ∧
    decodeClientSetup afterType = .ok (client, rest)

theorem accept_hello (fail : Option TransportError) (s : RecvStream) (bytes : Bytes)
    (ending : StreamEnd) (h : Carries s bytes ending) (client : ClientSetup)
    (hc : IsClientHello bytes client) :
    accept fail (Reader.new s) =
      if client.versions.contains Version.CURRENT then
        match fail with
        | some t => ⟨.done (.error (.webTransport t)), []⟩
        | none => ⟨.done (.ok ()), [0xC0, 0, 0, 0, 0xff, 0x0d, 0xad, 0, 0]⟩
      else ⟨.done (.error (.version client.versions [Version.CURRENT])), []⟩ := by
  obtain ⟨mid, rest, h1, h2⟩ := hc
  obtain ⟨a1, a2, a3, a4⟩ := decode_new good_controlType s bytes ending h
  simp only [specDecode, h1] at a1 a2
  obtain ⟨b1, b2, b3, b4⟩ := decode_spec good_clientSetup ((Reader.new s).decode decodeControlType).2 a4
  rw [a2] at b1
  simp only [specDecode, h2] at b1
  unfold accept
  rw [decode_pair _ a1]
  simp only [ne_eq, not_true, if_false, acceptSetup, b1]
  have he : wire (encodeServerSetup ⟨Version.CURRENT, []⟩) =
      .ok [0xC0, 0, 0, 0, 0xff, 0x0d, 0xad, 0, 0] := rfl
  unfold writeMessage
  rw [he]
  by_cases hv : client.versions.contains Version.CURRENT = true
  · rw [if_neg (by simpa using hv), if_pos hv]
    cases fail <;> rfl
  · rw [if_pos hv, if_neg hv]

/-- The server half: a client hello is accepted exactly if it offers the server's version, and
then the answer, if it can be sent, is a server setup naming that version. -/
theorem c14_server_half (s : RecvStream) (bytes : Bytes) (ending : StreamEnd)
    (h : Carries s bytes ending) (client : ClientSetup) (hc : IsClientHello bytes client) :
    ((accept none (Reader.new s)).result = .done (.ok ()) ↔ Version.CURRENT ∈ client.versions) ∧
    (Version.CURRENT ∈ client.versions → ∃ server,
      decodeServerSetup (accept none (Reader.new s)).written = .ok (server, []) ∧
      server.version = Version.CURRENT) ∧
    (Version.CURRENT ∉ client.versions →
      (accept none (Reader.new s)).result =
        .done (.error (.version client.versions [Version.CURRENT])) ∧
      (accept none (Reader.new s)).written = []) := by
  rw [accept_hello none s bytes ending h client hc]
  have hmem : (client.versions.contains Version.CURRENT = true) ↔
      Version.CURRENT ∈ client.versions := List.contains_iff_mem
  refine ⟨?_, ?_, ?_⟩
  · rw [← hmem]
    by_cases hv : client.versions.contains Version.CURRENT = true
    · rw [if_pos hv]; exact ⟨fun _ => hv, fun _ => rfl⟩
    · rw [if_neg hv]; exact ⟨fun hh => (by cases hh), fun hh => absurd hh hv⟩
  · intro hv
    rw [if_pos (hmem.2 hv)]
    exact ⟨⟨Version.CURRENT, []⟩, rfl, rfl⟩
  · intro hv
    rw [if_neg (fun hh => hv (hmem.1 hh))]
    exact ⟨rfl, rfl⟩

/-- The server establishes a session only after a client hello that offers its version. -/
theorem c14_server_only (fail : Option TransportError) (s : RecvStream) (bytes : Bytes)
    (ending : StreamEnd) (h : Carries s bytes ending)
    (hok : (accept fail (Reader.new s)).result = .done (.ok ())) :
    ∃ client, IsClientHello bytes client ∧ Version.CURRENT ∈ client.versions := by
  obtain ⟨a1, a2, a3, a4⟩ := decode_new good_controlType s bytes ending h
  cases h1 : decodeControlType bytes with
  | error e =>
    exfalso
    unfold accept at hok
    rw [decode_pair _ a1] at hok
    by_cases he : e = .short
    · subst he
      simp only [specDecode, h1] at hok
      cases ending <;> simp at hok
    · rw [specDecode_err h1 he] at hok
      simp at hok
  | ok p =>
    obtain ⟨kind, mid⟩ := p
    simp only [specDecode, h1] at a1 a2
    unfold accept at hok
    rw [decode_pair _ a1] at hok
    by_cases hk : kind = .session
    · subst hk
      simp only [ne_eq, not_true, if_false, acceptSetup] at hok
      obtain ⟨b1, -, -, -⟩ :=
        decode_spec good_clientSetup ((Reader.new s).decode decodeControlType).2 a4
      rw [a2, a3] at b1
      cases h2 : decodeClientSetup mid with
      | error e =>
        exfalso
        rw [b1] at hok
        by_cases he : e = .short
        · subst he
          simp only [specDecode, h2] at hok
          cases ending <;> simp at hok
        · rw [specDecode_err h2 he] at hok
          simp at hok
      | ok p =>
        obtain ⟨client, rest⟩ := p
        refine ⟨client, ⟨mid, rest, h1, h2⟩, ?_⟩
        by_contra hv
        simp only [specDecode, h2] at b1
        rw [b1] at hok
        have : ¬ client.versions.contains Version.CURRENT = true := by
          intro hh; exact hv (List.contains_iff_mem.1 hh)
        simp only [this] at hok
        simp at hok
    · simp only [ne_eq, hk, not_false_eq_true, if_true] at hok
      cases hok

/-- Two ends running this code agree: whatever the pieces, the server accepts the client's
request, and the client accepts the server's answer, which names the version it offered.
Partial: against another server, the client does not check the version in the answer
(`c14_client_accepts_unoffered`). -/
theorem c14_handshake_partial (request : Bytes) (hreq : connectRequest = .ok request)
    (toServer toClient : RecvStream) (e1 e2 : StreamEnd)
    (h1 : Carries toServer request e1)
    (h2 : Carries toClient (accept none (Reader.new toServer)).written e2) :
    (accept none (Reader.new toServer)).result = .done (.ok ()) ∧
    connectAnswer (Reader.new toClient) = .done (.ok ()) ∧
    ∃ server, decodeServerSetup (accept none (Reader.new toServer)).written = .ok (server, []) ∧
      server.version ∈ clientHello.versions := by
  have hreq' : request = [0, 1, 0xC0, 0, 0, 0, 0xff, 0x0d, 0xad, 0, 0] := by
    have : connectRequest = .ok [0, 1, 0xC0, 0, 0, 0, 0xff, 0x0d, 0xad, 0, 0] := rfl
    rw [this] at hreq
    cases hreq; rfl
  subst hreq'
  have hh : IsClientHello [0, 1, 0xC0, 0, 0, 0, 0xff, 0x0d, 0xad, 0, 0] clientHello :=
    ⟨_, _, rfl, rfl⟩
  rw [accept_hello none toServer _ e1 h1 clientHello hh] at h2 ⊢
  have hv : clientHello.versions.contains Version.CURRENT = true := by decide
  rw [if_pos hv] at h2 ⊢
  refine ⟨rfl, ?_, ⟨Version.CURRENT, []⟩, rfl, by decide⟩
  obtain ⟨a1, -, -, -⟩ := decode_new good_serverSetup toClient _ e2 h2
  have : decodeServerSetup [0xC0, 0, 0, 0, 0xff, 0x0d, 0xad, 0, 0] =
      .ok (⟨Version.CURRENT, []⟩, []) := rfl
  simp only [specDecode, this] at a1
  unfold connectAnswer
  rw [a1]

/-- The client half is violated: an answer naming a version that the client did not offer is
accepted. -/
theorem c14_client_accepts_unoffered :
    ∃ (answer : Bytes) (server : ServerSetup), decodeServerSetup answer = .ok (server, []) ∧
      server.version ∉ clientHello.versions ∧
      connectAnswer (Reader.new ⟨[answer], .idle⟩) = .done (.ok ()) :=
  ⟨[7, 0], ⟨7, []⟩, rfl, by decide, rfl⟩

example : ∃ client bytes, IsClientHello bytes client ∧ Version.CURRENT ∉ client.versions :=
  ⟨⟨[7], []⟩, [0, 1, 7, 0], ⟨_, _, rfl, rfl⟩, by decide⟩
example : ∃ request, connectRequest = .ok request := ⟨_, rfl⟩

/-! ## C15 -/

/-- The first wire integer of the stream. -/
def FirstInteger (bytes : Bytes) (n : Nat) (rest : Bytes) : Prop := decodeU64 bytes = .ok (n, rest)

/-- The rest of a stream is what remains to be read. -/
def Remains (r : Reader) (rest : Bytes) (ending : StreamEnd) : Prop :=
  r.buffer ++ r.stream.chunks.flatten = rest ∧ r.stream.ending = ending

theorem controlType_of (bytes : Bytes) (n : Nat) (rest : Bytes) (h : FirstInteger bytes n rest) :
    decodeControlType bytes =
      if n = 0 then .ok (.session, rest) else if n = 1 then .ok (.announce, rest)
      else if n = 2 then .ok (.subscribe, rest) else .error .invalidValue := by
  rw [decodeControlType, Dec.bind'_eq, Dec.bind_ok h]
  match n with
  | 0 => rfl
  | 1 => rfl
  | 2 => rfl
  | n + 3 =>
    rw [if_neg (by omega), if_neg (by omega), if_neg (by omega)]
    rfl

theorem dataType_of (bytes : Bytes) (n : Nat) (rest : Bytes) (h : FirstInteger bytes n rest) :
    decodeDataType bytes = if n = 0 then .ok (.group, rest) else .error .invalidValue := by
  rw [decodeDataType, Dec.bind'_eq, Dec.bind_ok h]
  match n with
  | 0 => rfl
  | n + 1 => rw [if_neg (by omega)]; rfl

/-- The first stream must be a session stream: type 1 or 2 fails with UnexpectedStream, any
other type with a decode error, and nothing is written in either case. -/
theorem c15_first_stream (fail : Option TransportError) (s : RecvStream) (bytes : Bytes)
    (ending : StreamEnd) (h : Carries s bytes ending) (n : Nat) (rest : Bytes)
    (hn : FirstInteger bytes n rest) (h0 : n ≠ 0) :
    (accept fail (Reader.new s)).written = [] ∧
    (accept fail (Reader.new s)).result = .done (.error (
      if n = 1 then .unexpectedStream .announce
      else if n = 2 then .unexpectedStream .subscribe
      else .decode .invalidValue)) := by
  obtain ⟨a1, -, -, -⟩ := decode_new good_controlType s bytes ending h
  have hd := controlType_of bytes n rest hn
  rw [if_neg h0] at hd
  unfold accept
  rw [decode_pair _ a1]
  by_cases h1 : n = 1
  · rw [if_pos h1] at hd ⊢
    simp only [specDecode, hd]
    exact ⟨rfl, rfl⟩
  · rw [if_neg h1] at hd ⊢
    by_cases h2 : n = 2
    · rw [if_pos h2] at hd ⊢
      simp only [specDecode, hd]
      exact ⟨rfl, rfl⟩
    · rw [if_neg h2] at hd ⊢
      simp only [specDecode, hd]
      exact ⟨trivial, trivial⟩

/-- Later bidirectional streams: type 0 is refused with UnexpectedStream, type 1 reaches the
announce handler and type 2 the subscribe handler with exactly the rest of the stream, and
every other type is dropped. -/
theorem c15_control_streams (s : RecvStream) (bytes : Bytes) (ending : StreamEnd)
    (h : Carries s bytes ending) (n : Nat) (rest : Bytes) (hn : FirstInteger bytes n rest) :
    (n = 0 → runControl (Reader.new s) = .refused (.unexpectedStream .session)) ∧
    (n = 1 → ∃ r, runControl (Reader.new s) = .announce r ∧ Remains r rest ending) ∧
    (n = 2 → ∃ r, runControl (Reader.new s) = .subscribe r ∧ Remains r rest ending) ∧
    (2 < n → runControl (Reader.new s) = .dropped (.decode .invalidValue)) := by
  obtain ⟨a1, a2, a3, -⟩ := decode_new good_controlType s bytes ending h
  have hd := controlType_of bytes n rest hn
  unfold runControl
  rw [decode_pair _ a1]
  refine ⟨fun h0 => ?_, fun h1 => ?_, fun h2 => ?_, fun h3 => ?_⟩
  · subst h0
    rw [if_pos rfl] at hd
    simp only [specDecode, hd]
  · subst h1
    rw [if_neg (by omega), if_pos rfl] at hd
    simp only [specDecode, hd] at a2 ⊢
    exact ⟨_, rfl, a2, a3⟩
  · subst h2
    rw [if_neg (by omega), if_neg (by omega), if_pos rfl] at hd
    simp only [specDecode, hd] at a2 ⊢
    exact ⟨_, rfl, a2, a3⟩
  · rw [if_neg (by omega), if_neg (by omega), if_neg (by omega)] at hd
    simp only [specDecode, hd]

/-- Unidirectional streams are handled exactly if their type is 0, with the rest of the
stream. -/
theorem c15_data_streams (s : RecvStream) (bytes : Bytes) (ending : StreamEnd)
    (h : Carries s bytes ending) (n : Nat) (rest : Bytes) (hn : FirstInteger bytes n rest) :
    (n = 0 → ∃ r, runData (Reader.new s) = .group r ∧ Remains r rest ending) ∧
    (n ≠ 0 → runData (Reader.new s) = .dropped (.decode .invalidValue)) := by
  obtain ⟨a1, a2, a3, -⟩ := decode_new good_dataType s bytes ending h
  have hd := dataType_of bytes n rest hn
  unfold runData
  rw [decode_pair _ a1]
  refine ⟨fun h0 => ?_, fun h1 => ?_⟩
  · subst h0
    rw [if_pos rfl] at hd
    simp only [specDecode, hd] at a2 ⊢
    exact ⟨_, rfl, a2, a3⟩
  · rw [if_neg h1] at hd
    simp only [specDecode, hd]

/-- If not even the type arrives, no handler runs. -/
theorem c15_no_type (s : RecvStream) (bytes : Bytes) (ending : StreamEnd)
    (h : Carries s bytes ending) (hn : decodeU64 bytes = .error .short) :
    (∀ r, runControl (Reader.new s) ≠ .announce r ∧ runControl (Reader.new s) ≠ .subscribe r) ∧
    (∀ r, runData (Reader.new s) ≠ .group r) ∧
    (∀ fail, (accept fail (Reader.new s)).result ≠ .done (.ok ())) := by
  have hc : decodeControlType bytes = .error .short := by
    rw [decodeControlType, Dec.bind'_eq, Dec.bind_error hn]
  have hd : decodeDataType bytes = .error .short := by
    rw [decodeDataType, Dec.bind'_eq, Dec.bind_error hn]
  obtain ⟨a1, -, -, -⟩ := decode_new good_controlType s bytes ending h
  obtain ⟨b1, -, -, -⟩ := decode_new good_dataType s bytes ending h
  refine ⟨fun r => ?_, fun r => ?_, fun fail => ?_⟩
  · unfold runControl
    rw [decode_pair _ a1]
    simp only [specDecode, hc]
    cases ending <;> simp
  · unfold runData
    rw [decode_pair _ b1]
    simp only [specDecode, hd]
    cases ending <;> simp
  · unfold accept
    rw [decode_pair _ a1]
    simp only [specDecode, hc]
    cases ending <;> simp

example : FirstInteger [0x40, 0x07, 9] 7 [9] ∧ FirstInteger [2, 1] 2 [1] := ⟨rfl, rfl⟩

/-! ## C16 -/

/-- Two errors of the same kind: only their detail differs.  Application errors are of the
same kind only if their codes are equal. -/
inductive SameKind : Error → Error → Prop
  | refl (e) : SameKind e e
  | webTransport (a b) : SameKind (.webTransport a) (.webTransport b)
  | decode (a b) : SameKind (.decode a) (.decode b)
  | version (a b c d) : SameKind (.version a b) (.version c d)
  | requiredExtension (a b) : SameKind (.requiredExtension a) (.requiredExtension b)
  | unexpectedStream (a b) : SameKind (.unexpectedStream a) (.unexpectedStream b)

/-- If two errors have the same wire code then they are of the same kind.  Partial: for the 64
largest application codes there is no code at all (`c16_app_overflow`). -/
theorem c16_codes_distinct_partial (e e' : Error) (c : Nat) (h : e.toCode = .ok c)
    (h' : e'.toCode = .ok c) : SameKind e e' := by
  cases e <;> cases e' <;> simp only [Error.toCode] at h h' <;>
    first
    | constructor
    | (exfalso; rw [← h'] at h; cases h)
    | (split at h <;> simp at h h' <;> omega)
    | (split at h' <;> simp at h h' <;> first | omega | contradiction)
    | (rename_i a b
       split at h
       · split at h'
         · simp at h h'
           have : a = b := by omega
           subst this; constructor
         · cases h'
       · cases h)

/-- The wire code of an application error is its own code plus 64, unless it overflows, in which
case building with overflow checks panics and building without them yields a protocol code:
the claim is violated for those. -/
theorem c16_app_overflow (code : Nat) (hc : code < 2 ^ 32) :
    ((Error.app code).toCode = .ok (code + 64) ↔ code < 2 ^ 32 - 64) ∧
    (2 ^ 32 - 64 ≤ code → (Error.app code).toCode = .error .overflow) ∧
    (code = 2 ^ 32 - 64 → (Error.app code).toCodeWrapping = Error.cancel.toCodeWrapping) := by
  refine ⟨?_, fun h => ?_, fun h => ?_⟩
  · simp only [Error.toCode]
    split
    · simp; omega
    · simp only [reduceCtorEq, false_iff]; omega
  · simp only [Error.toCode]
    rw [if_neg (by omega)]
  · subst h; rfl

/-- Without overflow checks, two different kinds do share a code. -/
theorem c16_collision_without_checks :
    ∃ e e' : Error, ¬ SameKind e e' ∧ e.toCodeWrapping = e'.toCodeWrapping :=
  ⟨.app (2 ^ 32 - 64), .cancel, ⟨fun h => (by cases h), rfl⟩⟩

example : ∃ c, (Error.app 7).toCode = .ok c := ⟨71, rfl⟩

/-! ## C17 -/

/-- The order that priorities should express: by track priority, then newer groups first. -/
def Before (p p' : UInt8) (seq seq' : Nat) : Prop :=
  p < p' ∨ (p = p' ∧ seq' < seq)

theorem priority_bits (p seq : Nat) (hp : p < 128) (hs : seq < 16777216) :
    (((p <<< 24) % 4294967296) ||| (((16777215 + 4294967296 - seq) % 4294967296) &&& 16777215)) =
      p * 16777216 + (16777215 - seq) := by
  have e2 : (16777215 + 4294967296 - seq) % 4294967296 = 16777215 - seq := by omega
  have e3 : ((16777215 - seq) &&& 16777215) = 16777215 - seq := by
    have := Nat.and_two_pow_sub_one_eq_mod (16777215 - seq) 24
    norm_num at this
    rw [this]
    omega
  have e4 : (p <<< 24) % 4294967296 = p <<< 24 := by
    rw [Nat.shiftLeft_eq]; omega
  rw [e2, e3, e4, ← Nat.shiftLeft_add_eq_or_of_lt (by omega), Nat.shiftLeft_eq]

theorem toI32_small (n : Nat) (h : n < 2147483648) : toI32 n = (n : Int) := by
  unfold toI32
  norm_num
  omega

theorem streamPriority_eq (checks : Bool) (p : UInt8) (seq : Nat) (hp : p < 128)
    (hs : seq < 2 ^ 24) :
    streamPriority checks p seq = .ok ((p.toNat * 16777216 + (16777215 - seq) : Nat) : Int) := by
  have hp' : p.toNat < 128 := UInt8.lt_iff_toNat_lt.1 hp
  norm_num at hs
  unfold streamPriority
  norm_num
  have e1 : seq % 4294967296 = seq := Nat.mod_eq_of_lt (by omega)
  rw [e1, if_neg (by omega), priority_bits _ _ hp' hs, toI32_small _ (by omega)]
  norm_num

/-- For track priorities below 128 and group sequences below 2^24, the numbers given to the
transport are ordered strictly by track priority and then by group, newer groups first, with
and without overflow checks.  Partial: outside these ranges the order is wrong or the
computation panics (`c17_priority_order_violated`, `c17_sequence_violated`). -/
theorem c17_priority_order_partial (checks : Bool) (p p' : UInt8) (seq seq' : Nat)
    (hp : p < 128) (hp' : p' < 128) (hs : seq < 2 ^ 24) (hs' : seq' < 2 ^ 24) :
    ∃ a b, streamPriority checks p seq = .ok a ∧ streamPriority checks p' seq' = .ok b ∧
      (a < b ↔ Before p p' seq seq') := by
  refine ⟨_, _, streamPriority_eq checks p seq hp hs, streamPriority_eq checks p' seq' hp' hs', ?_⟩
  have h1 : (p < p') ↔ p.toNat < p'.toNat := UInt8.lt_iff_toNat_lt
  have h2 : (p = p') ↔ p.toNat = p'.toNat := by
    constructor
    · exact fun h => by rw [h]
    · exact fun h => UInt8.toNat_inj.1 h
  unfold Before
  rw [h1, h2]
  omega

/-- Track priorities of 128 and more are placed before all smaller ones. -/
theorem c17_priority_order_violated :
    ∃ (p p' : UInt8) (seq seq' : Nat) (a b : Int), ∀ checks, Before p p' seq seq' ∧
      streamPriority checks p seq = .ok a ∧ streamPriority checks p' seq' = .ok b ∧ b < a :=
  ⟨0, 128, 0, 0, 0xFFFFFF, -2130706433, fun checks => by
    refine ⟨.inl (by decide), ?_, ?_, by decide⟩ <;> cases checks <;> rfl⟩

/-- From sequence 2^24 on the computation panics with overflow checks, and without them a
newer group gets the number of an older one. -/
theorem c17_sequence_violated (p : UInt8) :
    streamPriority true p (2 ^ 24) = .error .overflow ∧
    streamPriority false p (2 ^ 24) = streamPriority false p 0 := ⟨rfl, rfl⟩

end Verif.Props.Handshake
