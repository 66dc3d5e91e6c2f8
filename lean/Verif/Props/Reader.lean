import Verif.Session.ReaderLemmas
import Verif.Props.Message

/-!
# Properties C11–C13: reading messages from a stream
-/

namespace Verif.Props.Reader

open Verif Verif.Coding Verif.Session Verif.Props.Message

/-! ## Specification -/

/-- A call on the reader. -/
inductive Call where
  | decode (k : Kind)
  | decodeMaybe (k : Kind)
  | finished
  | read (max : Nat)

/-- What a call returned. -/
inductive Reply where
  | message (k : Kind) (o : Outcome k.Ty)
  | optional (k : Kind) (o : Outcome (Option k.Ty))
  | ended (o : Outcome Unit)
  | data (o : Outcome (Option Bytes))

/-- Perform a call. -/
def perform (r : Reader) : Call → Reply × Reader
  | .decode k => (.message k (r.decode k.dec).1, (r.decode k.dec).2)
  | .decodeMaybe k => (.optional k (r.decodeMaybe k.dec).1, (r.decodeMaybe k.dec).2)
  | .finished => (.ended r.finished.1, r.finished.2)
  | .read max => (.data (r.read max).1, (r.read max).2)

/-- Perform calls one after the other. -/
def performAll : List Call → Reader → List Reply × Reader
  | [], r => ([], r)
  | c :: cs, r =>
    let (reply, r) := perform r c
    let (replies, r) := performAll cs r
    (reply :: replies, r)

/-- A stream carries these bytes and ends like this; it delivers them in non-empty pieces. -/
def Carries (s : RecvStream) (bytes : Bytes) (ending : StreamEnd) : Prop :=
  s.chunks.flatten = bytes ∧ s.ending = ending ∧ ∀ c ∈ s.chunks, c ≠ []

/-- Message calls, as opposed to raw reads of arbitrary pieces. -/
def Call.isMessage : Call → Prop
  | .read _ => False
  | _ => True

/-! ## C11 -/

theorem performAll_same (calls : List Call) (hm : ∀ c ∈ calls, c.isMessage) (r r' : Reader)
    (hr : r.Ok) (hr' : r'.Ok) (hc : r.content = r'.content)
    (he : r.stream.ending = r'.stream.ending) :
    (performAll calls r).1 = (performAll calls r').1 := by
  induction calls generalizing r r' with
  | nil => rfl
  | cons c cs ih =>
    have hcs : ∀ c ∈ cs, c.isMessage := fun x hx => hm x (by simp [hx])
    have key : (perform r c).1 = (perform r' c).1 ∧ (perform r c).2.Ok ∧ (perform r' c).2.Ok ∧
        (perform r c).2.content = (perform r' c).2.content ∧
        (perform r c).2.stream.ending = (perform r' c).2.stream.ending := by
      cases c with
      | decode k =>
        obtain ⟨a1, a2, a3, a4⟩ := decode_spec (good_kind k) r hr
        obtain ⟨b1, b2, b3, b4⟩ := decode_spec (good_kind k) r' hr'
        rw [hc, he] at a1 a2
        simp only [perform]
        exact ⟨by rw [a1, b1], a4, b4, by rw [a2, b2], by rw [a3, b3, he]⟩
      | decodeMaybe k =>
        obtain ⟨a1, a2, a3, a4⟩ := decodeMaybe_spec (good_kind k) r hr
        obtain ⟨b1, b2, b3, b4⟩ := decodeMaybe_spec (good_kind k) r' hr'
        rw [hc, he] at a1 a2
        simp only [perform]
        exact ⟨by rw [a1, b1], a4, b4, by rw [a2, b2], by rw [a3, b3, he]⟩
      | finished =>
        obtain ⟨a1, a2, a3, a4⟩ := finished_spec r hr
        obtain ⟨b1, b2, b3, b4⟩ := finished_spec r' hr'
        rw [hc, he] at a1
        simp only [perform]
        exact ⟨by rw [a1, b1], a4, b4, by rw [a2, b2, hc], by rw [a3, b3, he]⟩
      | read max => exact absurd (hm (.read max) (by simp)) (fun h => h)
    obtain ⟨k1, k2, k3, k4, k5⟩ := key
    simp only [performAll]
    rw [k1, ih hcs _ _ k2 k3 k4 k5]

/-- Two streams with the same bytes and the same end give the same replies to every sequence
of message calls, however they are cut into pieces. -/
theorem c11_split_independent (calls : List Call) (hm : ∀ c ∈ calls, c.isMessage)
    (bytes : Bytes) (ending : StreamEnd) (s s' : RecvStream)
    (h : Carries s bytes ending) (h' : Carries s' bytes ending) :
    (performAll calls (Reader.new s)).1 = (performAll calls (Reader.new s')).1 := by
  apply performAll_same calls hm
  · exact h.2.2
  · exact h'.2.2
  · simp [Reader.content, Reader.new, h.1, h'.1]
  · simp [Reader.new, h.2.1, h'.2.1]

/-- Reading a message from a stream gives what decoding all of its bytes at once gives; only
if those are too short does the end of the stream matter. -/
theorem c11_decode_whole (k : Kind) (s : RecvStream) (bytes : Bytes) (ending : StreamEnd)
    (h : Carries s bytes ending) :
    (∀ m rest, k.dec bytes = .ok (m, rest) →
      ((Reader.new s).decode k.dec).1 = .done (.ok m)) ∧
    (∀ e, k.dec bytes = .error e → e ≠ .short →
      ((Reader.new s).decode k.dec).1 = .done (.error (.decode e))) ∧
    (k.dec bytes = .error .short →
      ((Reader.new s).decode k.dec).1 =
        match ending with
        | .fin => .done (.error (.decode .short))
        | .failed e => .done (.error (.webTransport e))
        | .idle => .waiting) := by
  obtain ⟨a1, -, -, -⟩ := decode_spec (good_kind k) (Reader.new s) h.2.2
  have hc : (Reader.new s).content = bytes := by simp [Reader.content, Reader.new, h.1]
  have he : (Reader.new s).stream.ending = ending := h.2.1
  rw [hc, he] at a1
  refine ⟨fun m rest hd => ?_, fun e hd hne => ?_, fun hd => ?_⟩
  · rw [a1]; simp only [specDecode, hd]
  · rw [a1, specDecode_err hd hne]
  · rw [a1]; simp only [specDecode, hd]
    cases ending <;> rfl

example : Carries ⟨[[3], [0x40, 70]], .fin⟩ [3, 0x40, 70] .fin ∧
    Carries ⟨[[3, 0x40], [70]], .fin⟩ [3, 0x40, 70] .fin := by
  refine ⟨⟨rfl, rfl, ?_⟩, ⟨rfl, rfl, ?_⟩⟩ <;> simp

/-! ## C12 -/

/-- The reply after the last complete message: `None` only if the stream was finished exactly
there. -/
def lastReply (k : Kind) (ending : StreamEnd) (cut : Bytes) : Outcome (Option k.Ty) :=
  match ending with
  | .fin => if cut = [] then .done (.ok none) else .done (.error (.decode .short))
  | .failed e => .done (.error (.webTransport e))
  | .idle => .waiting

/-- The beginning of an encoded message of this kind, not all of it. -/
def PartOfMessage (k : Kind) (cut : Bytes) : Prop :=
  ∃ (m : k.Ty) (missing : Bytes), k.Exists m ∧ wire (k.enc m) = .ok (cut ++ missing) ∧
    missing ≠ []

theorem c12_aux (k : Kind) (ms : List k.Ty) (hms : ∀ m ∈ ms, k.Exists m) (cut : Bytes)
    (hcut : PartOfMessage k cut) (r : Reader) (hr : r.Ok) (sent : Bytes)
    (hw : wire (encodeAll k.enc ms) = .ok sent) (hc : r.content = sent ++ cut) :
    ∃ received, List.Forall₂ k.Seen ms received ∧
      (performAll (List.replicate (ms.length + 1) (.decodeMaybe k)) r).1 =
        received.map (fun m => .optional k (.done (.ok (some m)))) ++
          [.optional k (lastReply k r.stream.ending cut)] := by
  induction ms generalizing r sent with
  | nil =>
    refine ⟨[], .nil, ?_⟩
    simp only [encodeAll, wire_ok, List.flatMap_nil, Except.ok.injEq] at hw
    subst hw
    rw [List.nil_append] at hc
    obtain ⟨a1, -, -, -⟩ := decodeMaybe_spec (good_kind k) r hr
    simp only [List.length_nil, Nat.zero_add, List.replicate_one, performAll, perform,
      List.map_nil, List.nil_append, List.cons.injEq, and_true]
    rw [a1, hc]
    congr 1
    obtain ⟨m, missing, hm, hmw, hne⟩ := hcut
    have hshort := c08_truncation k m hm _ cut missing hmw rfl hne
    unfold specDecodeMaybe lastReply
    by_cases h0 : cut = []
    · rw [if_pos h0]
      cases r.stream.ending <;> simp [h0]
    · rw [if_neg h0]
      simp only [specDecode, hshort]
      cases r.stream.ending <;> simp [h0]
  | cons m ms ih =>
    obtain ⟨b1, b2, h1, h2, rfl⟩ := wire_seq_ok.1 hw
    obtain ⟨m', hd, hs⟩ := c06_messages_roundtrip k m (hms m (by simp)) b1 (b2 ++ cut) h1
    obtain ⟨a1, a2, a3, a4⟩ := decodeMaybe_spec (good_kind k) r hr
    have hb1 : b1 ≠ [] := by
      rintro rfl
      obtain ⟨m2, hd2, _⟩ := c06_messages_roundtrip k m (hms m (by simp)) [] [] h1
      have hnil : k.dec [] = .error .short := by cases k <;> rfl
      rw [List.append_nil, hnil] at hd2
      cases hd2
    have hspec : specDecodeMaybe k.dec r.stream.ending r.content =
        (.done (.ok (some m')), b2 ++ cut) := by
      unfold specDecodeMaybe
      rw [hc, List.append_assoc, if_neg (by simp [hb1])]
      simp only [specDecode, hd]
    rw [hspec] at a1 a2
    obtain ⟨received, hf, hrec⟩ := ih (fun x hx => hms x (by simp [hx])) _ a4 b2 h2 a2
    rw [a3] at hrec
    refine ⟨m' :: received, .cons hs hf, ?_⟩
    rw [List.length_cons, List.replicate_succ, performAll]
    simp only [perform, List.map_cons, List.cons_append]
    rw [hrec, a1]

/-- Reading optional messages returns exactly the messages sent; then `None` if the stream was
finished right after them, a Short error if it was finished inside a further message, the
transport error if it failed at either place, and otherwise nothing yet.  (Whatever the
pieces; `cut` empty is the message boundary.) -/
theorem c12_optional_messages (k : Kind) (ms : List k.Ty) (hms : ∀ m ∈ ms, k.Exists m)
    (sent cut : Bytes) (hcut : PartOfMessage k cut) (hw : wire (encodeAll k.enc ms) = .ok sent)
    (ending : StreamEnd) (s : RecvStream) (h : Carries s (sent ++ cut) ending) :
    ∃ received, List.Forall₂ k.Seen ms received ∧
      (performAll (List.replicate (ms.length + 1) (.decodeMaybe k)) (Reader.new s)).1 =
        received.map (fun m => .optional k (.done (.ok (some m)))) ++
          [.optional k (lastReply k ending cut)] := by
  have := c12_aux k ms hms cut hcut (Reader.new s) h.2.2 sent hw
    (by simp [Reader.content, Reader.new, h.1])
  rwa [show (Reader.new s).stream.ending = ending from h.2.1] at this

/-- `None` is returned only at a clean end: the stream was finished and every byte consumed. -/
theorem c12_none_only_at_end (k : Kind) (r : Reader) (hr : ∀ c ∈ r.stream.chunks, c ≠ [])
    (h : (r.decodeMaybe k.dec).1 = .done (.ok none)) :
    r.buffer = [] ∧ r.stream.chunks = [] ∧ r.stream.ending = .fin := by
  obtain ⟨a1, -, -, -⟩ := decodeMaybe_spec (good_kind k) r hr
  rw [a1] at h
  unfold specDecodeMaybe at h
  split at h
  · rename_i hc
    have hb : r.buffer = [] ∧ r.stream.chunks.flatten = [] := by
      simpa [Reader.content, List.append_eq_nil_iff] using hc
    refine ⟨hb.1, ?_, ?_⟩
    · cases hch : r.stream.chunks with
      | nil => rfl
      | cons c cs =>
        rw [hch] at hb
        exact absurd (List.append_eq_nil_iff.1 hb.2).1 (hr c (by simp [hch]))
    · cases he : r.stream.ending <;> rw [he] at h <;> simp at h ⊢
  · split at h <;> simp at h

example : PartOfMessage .frame [0x40] ∧ PartOfMessage .frame [] :=
  ⟨⟨⟨70⟩, [70], trivial, rfl, by simp⟩, ⟨⟨1⟩, [1], trivial, rfl, by simp⟩⟩

/-! ## C13 -/

/-- These bytes were handed out by this reply: the data of a raw read, or the bytes that make
up the decoded message. -/
def HandsOut : Reply → Bytes → Prop
  | .message k (.done (.ok m)), bytes => k.dec bytes = .ok (m, [])
  | .optional k (.done (.ok (some m))), bytes => k.dec bytes = .ok (m, [])
  | .data (.done (.ok (some d))), bytes => bytes = d
  | _, bytes => bytes = []

theorem handsOut_decode (k : Kind) (o : Outcome k.Ty) (ending : StreamEnd) (bytes rest : Bytes)
    (h : specDecode k.dec ending bytes = (o, rest)) :
    ∃ handed, HandsOut (.message k o) handed ∧ bytes = handed ++ rest := by
  unfold specDecode at h
  split at h
  · rename_i a rest' hd
    cases h
    obtain ⟨used, hu, hk⟩ := (good_kind k).1 _ _ _ hd
    refine ⟨used, ?_, hu⟩
    have := hk []
    rwa [List.append_nil] at this
  · split at h <;> cases h <;> exact ⟨[], rfl, rfl⟩
  · cases h; exact ⟨[], rfl, rfl⟩

theorem handsOut_maybe (k : Kind) (o : Outcome (Option k.Ty)) (ending : StreamEnd)
    (bytes rest : Bytes) (h : specDecodeMaybe k.dec ending bytes = (o, rest)) :
    ∃ handed, HandsOut (.optional k o) handed ∧ bytes = handed ++ rest := by
  unfold specDecodeMaybe at h
  split at h
  · split at h <;> cases h <;> exact ⟨[], rfl, rfl⟩
  · split at h
    · rename_i a rest' hs
      cases h
      exact handsOut_decode k _ ending bytes rest hs
    · rename_i e rest' hs
      cases h
      obtain ⟨handed, h1, h2⟩ := handsOut_decode k _ ending bytes rest hs
      exact ⟨handed, h1, h2⟩
    · rename_i rest' hs
      cases h
      obtain ⟨handed, h1, h2⟩ := handsOut_decode k _ ending bytes rest hs
      exact ⟨handed, h1, h2⟩

theorem c13_aux (calls : List Call) (hmax : ∀ max, Call.read max ∈ calls → 0 < max) (r : Reader)
    (hr : r.Ok) :
    ∃ handed : List Bytes, List.Forall₂ HandsOut (performAll calls r).1 handed ∧
      r.content = handed.flatten ++ (performAll calls r).2.content := by
  induction calls generalizing r with
  | nil => exact ⟨[], .nil, rfl⟩
  | cons c cs ih =>
    have key : (perform r c).2.Ok ∧ ∃ handed, HandsOut (perform r c).1 handed ∧
        r.content = handed ++ (perform r c).2.content := by
      cases c with
      | decode k =>
        obtain ⟨a1, a2, a3, a4⟩ := decode_spec (good_kind k) r hr
        refine ⟨a4, handsOut_decode k _ r.stream.ending _ _ ?_⟩
        simp only [perform]
        rw [a1, a2]
      | decodeMaybe k =>
        obtain ⟨a1, a2, a3, a4⟩ := decodeMaybe_spec (good_kind k) r hr
        refine ⟨a4, handsOut_maybe k _ r.stream.ending _ _ ?_⟩
        simp only [perform]
        rw [a1, a2]
      | finished =>
        obtain ⟨a1, a2, a3, a4⟩ := finished_spec r hr
        exact ⟨a4, [], rfl, by simp [perform, a2]⟩
      | read max =>
        obtain ⟨hres, h2, h3⟩ := read_spec max (hmax max (by simp)) r hr
        refine ⟨h3, ?_⟩
        rcases hres with ⟨data, g1, -, -, g4⟩ | ⟨g1, g2, g3⟩
        · refine ⟨data, ?_, g4⟩
          simp only [perform, g1]
          rfl
        · refine ⟨[], ?_, ?_⟩
          · simp only [perform, g2]
            cases r.stream.ending <;> rfl
          · simp only [perform, g3, List.nil_append]
    obtain ⟨k1, handed, k2, k3⟩ := key
    obtain ⟨hs, f1, f2⟩ := ih (fun m hm => hmax m (by simp [hm])) _ k1
    refine ⟨handed :: hs, .cons k2 f1, ?_⟩
    rw [k3, f2]
    simp [performAll]

/-- For every interleaving of calls, the bytes handed out so far followed by the bytes that are
buffered and still to arrive are exactly the bytes of the stream. -/
theorem c13_bytes_conserved (calls : List Call) (hmax : ∀ max, Call.read max ∈ calls → 0 < max)
    (s : RecvStream) (bytes : Bytes) (ending : StreamEnd) (h : Carries s bytes ending) :
    ∃ handed : List Bytes,
      List.Forall₂ HandsOut (performAll calls (Reader.new s)).1 handed ∧
      bytes = handed.flatten ++ (performAll calls (Reader.new s)).2.buffer ++
        (performAll calls (Reader.new s)).2.stream.chunks.flatten := by
  obtain ⟨handed, h1, h2⟩ := c13_aux calls hmax (Reader.new s) h.2.2
  refine ⟨handed, h1, ?_⟩
  rw [List.append_assoc]
  simpa [Reader.content, Reader.new, h.1] using h2

/-- A raw read returns between 1 and `max` bytes, or `None` exactly at the end of the stream. -/
theorem c13_read_size (r : Reader) (hr : ∀ c ∈ r.stream.chunks, c ≠ []) (max : Nat)
    (hm : 0 < max) :
    (∀ data, (r.read max).1 = .done (.ok (some data)) →
      1 ≤ data.length ∧ data.length ≤ max) ∧
    ((r.read max).1 = .done (.ok none) ↔
      r.buffer = [] ∧ r.stream.chunks = [] ∧ r.stream.ending = .fin) := by
  obtain ⟨hres, -, -⟩ := read_spec max hm r hr
  constructor
  · intro data hd
    rcases hres with ⟨d, g1, g2, g3, -⟩ | ⟨-, g2, -⟩
    · rw [hd] at g1; cases g1; exact ⟨g2, g3⟩
    · rw [hd] at g2
      cases he : r.stream.ending <;> rw [he] at g2 <;> cases g2
  · constructor
    · intro hn
      rcases hres with ⟨d, g1, -⟩ | ⟨g1, g2, -⟩
      · rw [hn] at g1; cases g1
      · have hb : r.buffer = [] ∧ r.stream.chunks.flatten = [] := by
          simpa [Reader.content, List.append_eq_nil_iff] using g1
        refine ⟨hb.1, ?_, ?_⟩
        · cases hch : r.stream.chunks with
          | nil => rfl
          | cons c cs =>
            rw [hch] at hb
            exact absurd (List.append_eq_nil_iff.1 hb.2).1 (hr c (by simp [hch]))
        · rw [hn] at g2
          cases he : r.stream.ending <;> rw [he] at g2 <;> first | rfl | cases g2
    · rintro ⟨h1, h2, h3⟩
      simp [Reader.read, h1, h2, h3, StreamEnd.result]

example : ∀ max, Call.read max ∈ [Call.decode .frame, .read 3, .decodeMaybe .frame] → 0 < max := by
  simp

end Verif.Props.Reader
